import Verif.Algo.RadixThrows

/-!
# Radix sorts whose key function throws (C87): the claims
-/

namespace Verif.Algo

open Traced

variable {α : Type}

/-! ## Where the elements are -/

/-- Each element of `xs` has a place of its own in the source or in the buffer, both of as many places as `xs` has elements. -/
def Held (xs : List α) (sb : Both α) : Prop :=
  ∃ ls lb : List Nat, ls.Nodup ∧ lb.Nodup ∧ (∀ a ∈ ls, a < xs.length) ∧ (∀ a ∈ lb, a < xs.length) ∧ (ls.map sb.1 ++ lb.map sb.2).Perm (xs.map some)

theorem Held.swap {xs : List α} {sb : Both α} : Held xs sb → Held xs sb.swap
  | ⟨ls, lb, h1, h2, h3, h4, h5⟩ => ⟨lb, ls, h2, h1, h4, h3, List.perm_append_comm.trans h5⟩

theorem Held.perm {xs ys : List α} {sb : Both α} (hp : ys.Perm xs) : Held ys sb → Held xs sb
  | ⟨ls, lb, h1, h2, h3, h4, h5⟩ => ⟨ls, lb, h1, h2, hp.length_eq ▸ h3, hp.length_eq ▸ h4, h5.trans (hp.map some)⟩

theorem seg_map {m : Mem α} : ∀ {xs : List α} {i : Nat}, m.Seg i xs → (List.range' i xs.length).map m = xs.map some
  | [], _, _ => rfl
  | x :: xs, i, h => by
    rw [Mem.seg_cons] at h
    rw [List.length_cons, List.range'_succ, List.map_cons, h.1, seg_map h.2, List.map_cons]

theorem Held.of_seg {xs : List α} {s : Mem α} (hs : s.Seg 0 xs) (b : Mem α) : Held xs (s, b) := by
  refine ⟨List.range' 0 xs.length, [], List.nodup_range', List.nodup_nil, fun a ha => ?_, by simp, ?_⟩
  · rw [List.mem_range'_1] at ha; omega
  · rw [seg_map hs]; simp

/-- Where the elements that were moved are. -/
def moved (dg : α → Nat) (xs pre : List α) : Nat → List Nat
  | 0 => []
  | d + 1 => moved dg xs pre d ++ List.range' (startOf dg xs d) (pre.filter fun x => decide (dg x = d)).length

section
variable {dg : α → Nat} {D : Nat} {xs pre rest : List α} {i : Nat} {c : Nat → Nat} {cur nxt : Mem α}

theorem Scatter.moved_lt (h : Scatter dg D xs pre rest i c cur nxt) : ∀ d, ∀ a ∈ moved dg xs pre d, a < startOf dg xs d
  | 0, a, ha => by cases ha
  | d + 1, a, ha => by
    have := h.count d
    rcases List.mem_append.1 ha with ha | ha
    · have := h.moved_lt d a ha; omega
    · rw [List.mem_range'_1] at ha; omega

theorem Scatter.moved_nodup (h : Scatter dg D xs pre rest i c cur nxt) : ∀ d, (moved dg xs pre d).Nodup
  | 0 => List.nodup_nil
  | d + 1 => by
    refine List.nodup_append.2 ⟨h.moved_nodup d, List.nodup_range', fun a ha b hb => ?_⟩
    have := h.moved_lt d a ha
    rw [List.mem_range'_1] at hb; omega

theorem Scatter.moved_map (h : Scatter dg D xs pre rest i c cur nxt) : ∀ d, d ≤ D → (moved dg xs pre d).map nxt = (buckets dg pre d).map some
  | 0, _ => rfl
  | d + 1, hd => by
    rw [moved, buckets, List.map_append, List.map_append, h.moved_map d (by omega), seg_map (h.there d (by omega))]

/-- In the middle of a pass every element is in one of the two ranges. -/
theorem Scatter.held (h : Scatter dg D xs pre rest i c cur nxt) (hd : ∀ x ∈ xs, dg x < D) : Held xs (cur, nxt) := by
  have hl : pre.length + rest.length = xs.length := by rw [← h.split, List.length_append]
  refine ⟨List.range' i rest.length, moved dg xs pre D, List.nodup_range', h.moved_nodup D, fun a ha => ?_, fun a ha => ?_, ?_⟩
  · have := h.pos
    rw [List.mem_range'_1] at ha; omega
  · have := h.moved_lt D a ha
    have : startOf dg xs D ≤ xs.length := List.length_filter_le _ _
    omega
  · rw [h.moved_map D (Nat.le_refl _), seg_map h.here, ← List.map_append]
    refine List.Perm.map some ?_
    refine List.perm_append_comm.trans ?_
    rw [← h.split]
    refine List.Perm.append_right _ ((buckets_perm dg pre D).trans (List.Perm.of_eq (List.filter_eq_self.2 fun x hx => ?_)))
    simpa using hd x (by rw [← h.split]; exact List.mem_append_left _ hx)

end

/-! ## One pass -/

theorem scatterLoopT_good {dg : α → Nat} {D : Nat} {xs : List α} (hd : ∀ x ∈ xs, dg x < D) :
    ∀ (rest : List α) (i : Nat) (c : Nat → Nat) (cur nxt : Mem α) (pre : List α), Scatter dg D xs pre rest i c cur nxt →
      Good (Held xs) (fun r => r.2.Seg 0 (buckets dg xs D)) (scatterLoopT dg xs.length rest.length i c cur nxt)
  | [], i, c, cur, nxt, pre, h => by
    have e := h.split
    rw [List.append_nil] at e; subst e
    exact Good.pure (buckets_seg D h.there)
  | v :: rest, i, c, cur, nxt, pre, h => by
    obtain ⟨h0, hlt, h'⟩ := h.step hd
    rw [List.length_cons, scatterLoopT, h0]
    refine Good.bind (Q := (· = v)) (Good.lift fun r e => by injection e with e; exact e.symm) ?_
    rintro _ rfl
    refine Good.bind (Q := fun _ => True) (Good.call (h.held hd) trivial) fun _ _ => ?_
    rw [if_pos hlt]
    exact scatterLoopT_good hd rest (i + 1) _ _ _ _ h'

theorem passT_good {dg : α → Nat} {D : Nat} {xs ys : List α} (hp : ys.Perm xs) (hd : ∀ x ∈ xs, dg x < D) {c : Nat → Nat} {cur nxt : Mem α} (hs : cur.Seg 0 ys)
    (hc : ∀ d, d < D → c d = startOf dg xs d) :
    Good (Held xs) (fun r => ∃ zs, r.2.Seg 0 zs ∧ zs.Perm xs) (scatterLoopT dg xs.length xs.length 0 c cur nxt) := by
  have hd' : ∀ x ∈ ys, dg x < D := fun x hx => hd x (hp.mem_iff.1 hx)
  have := scatterLoopT_good hd' ys 0 c cur nxt [] (.start nxt hs fun d hd => by rw [hc d hd, startOf_perm hp])
  rw [hp.length_eq] at this
  exact this.mono (fun _ h => h.perm hp) fun r h => ⟨_, h, ((buckets_stable hd').perm).trans hp⟩

theorem Good.flip {R : Type} {P : Both α → Prop} {Q : R → Prop} {t : Traced (Both α) R} (h : Good P Q t) (hP : ∀ s, P s → P s.swap) : Good P Q t.flip :=
  ⟨fun s hs => by obtain ⟨s', h', rfl⟩ := List.mem_map.1 hs; exact hP _ (h.1 s' h'), h.2⟩

theorem countLoopT_good {p : α → Bool} {s b : Mem α} {P : Both α → Prop} (hP : P (s, b)) : ∀ k i c, Good P (fun r => countLoop p s k i c = some r) (countLoopT p s b k i c)
  | k, i, c => by
    refine ⟨?_, fun r h => by rw [← countLoopT_snd p s b]; exact h⟩
    have : ∀ k i c, Good P (fun _ => True) (countLoopT p s b k i c) := by
      intro k
      induction k with
      | zero => exact fun i c => Good.pure trivial
      | succ k ih => exact fun i c => Good.bind (Q := fun _ => True) (Good.lift fun _ _ => trivial) fun v _ => Good.bind (Q := fun _ => True) (Good.call hP trivial) fun _ _ => ih _ _
    exact (this k i c).1

theorem histogramT_good {f : α → Nat} {bytes : Nat} {s b : Mem α} {P : Both α → Prop} (hP : P (s, b)) : ∀ k i c,
    Good P (fun r => histogram f bytes s k i c = some r) (histogramT f bytes s b k i c)
  | k, i, c => by
    refine ⟨?_, fun r h => by rw [← histogramT_snd f bytes s b]; exact h⟩
    have : ∀ k i c, Good P (fun _ => True) (histogramT f bytes s b k i c) := by
      intro k
      induction k with
      | zero => exact fun i c => Good.pure trivial
      | succ k ih => exact fun i c => Good.bind (Q := fun _ => True) (Good.lift fun _ _ => trivial) fun v _ => Good.bind (Q := fun _ => True) (Good.call hP trivial) fun _ _ => ih _ _
    exact (this k i c).1

theorem boolLoopT_eq {f : α → Bool} {n : Nat} : ∀ (k i fp tp : Nat) (cur nxt : Mem α) (c : Nat → Nat), c 0 = fp → c 1 = tp →
    boolLoopT f n k i fp tp cur nxt = scatterLoopT (boolDigit f) n k i c cur nxt
  | 0, _, _, _, _, _, _, _, _ => rfl
  | k + 1, i, fp, tp, cur, nxt, c, h0, h1 => by
    rw [boolLoopT, scatterLoopT]
    congr 1
    funext v
    congr 1
    funext _
    cases hv : f v
    · have hb : boolDigit f v = 0 := by simp [boolDigit, hv]
      simp only [hb, h0, if_neg Bool.false_ne_true]
      split
      · exact boolLoopT_eq k (i + 1) (fp + 1) tp _ _ _ (by rw [upd_same]) (by rw [upd_other _ _ (by omega), h1])
      · rfl
    · have hb : boolDigit f v = 1 := by simp [boolDigit, hv]
      simp only [hb, h1, if_true]
      split
      · exact boolLoopT_eq k (i + 1) fp (tp + 1) _ _ _ (by rw [upd_other _ _ (by omega), h0]) (by rw [upd_same])
      · rfl

/-- What is claimed of every instance: at each call the elements are held; the result is where the returned value says. -/
abbrev HeldT (xs : List α) (t : Traced (Both α) (Mem α × Mem α × Bool)) : Prop :=
  Good (Held xs) (fun r => ∃ ys, (if r.2.2 then r.2.1 else r.1).Seg 0 ys ∧ ys.Perm xs) t

theorem boolSortT_good {f : α → Bool} {xs : List α} {s b : Mem α} (hs : s.Seg 0 xs) : HeldT xs (doubleBufferedImplT xs.length (.bool f) s b) := by
  have hcnt : (0 : Nat) + (xs.filter fun x => !f x).length = startOf (boolDigit f) xs 1 := by
    rw [startOf, Nat.zero_add]
    congr 2
    funext x
    simp only [boolDigit]
    by_cases hx : f x = true <;> simp [hx]
  rw [doubleBufferedImplT]
  refine Good.bind (Q := fun r => ∃ zs, r.2.Seg 0 zs ∧ zs.Perm xs) ?_ fun r h => Good.pure (by simpa using h)
  rw [boolSortCopyT]
  refine Good.bind (countLoopT_good (.of_seg hs b) _ _ _) fun r h => ?_
  rw [countLoop_spec hs, hcnt] at h
  injection h with h
  rw [boolLoopT_eq _ _ _ _ _ _ (fun d => startOf (boolDigit f) xs d) (by simp [startOf]) h]
  exact passT_good (D := 2) (List.Perm.refl _) (fun x _ => by simp only [boolDigit]; split <;> omega) hs fun d _ => rfl

theorem numericLoopT_even {f : α → Nat} {xs : List α} {c : Nat → Nat → Nat} {bytes : Nat} (hc : ∀ k, k < bytes → ∀ d, d < 256 → c k d = startOf (digit f k) xs d) :
    ∀ (q k : Nat) {ys : List α} {s b : Mem α}, k + 2 * q = bytes → ys.Perm xs → s.Seg 0 ys →
      Good (Held xs) (fun r => ∃ zs, r.1.Seg 0 zs ∧ zs.Perm xs) (numericLoopT f true xs.length c (2 * q) k s b)
  | 0, k, ys, s, b, hk, hy, hs => Good.pure ⟨ys, hs, hy⟩
  | q + 1, k, ys, s, b, hk, hy, hs => by
    rw [show 2 * (q + 1) = 2 * q + 2 by omega, numericLoopT]
    refine Good.bind (passT_good hy (fun x _ => digit_lt f k x) hs (hc k (by omega))) ?_
    rintro sb ⟨zs, h1, h2⟩
    rw [if_pos rfl]
    refine Good.bind (Good.flip (passT_good h2 (fun x _ => digit_lt f (k + 1) x) h1 (hc (k + 1) (by omega))) fun _ h => h.swap) ?_
    rintro bs ⟨ws, h3, h4⟩
    exact numericLoopT_even hc q (k + 2) (by omega) h4 h3

theorem numericSortT_good {bytes : Nat} {f : α → Nat} (hb : bytes = 1 ∨ bytes % 2 = 0) {xs : List α} {s b : Mem α} (hs : s.Seg 0 xs) :
    HeldT xs (numericSortT bytes f xs.length s b) := by
  rw [numericSortT]
  refine Good.bind (histogramT_good (.of_seg hs b) _ _ _) fun c' e => ?_
  obtain ⟨c2, e2, hc⟩ := histogram_spec (f := f) (bytes := bytes) (c := fun _ _ => 0) hs
  obtain rfl : c2 = c' := Option.some.inj (e2.symm.trans e)
  have hcc : ∀ k, k < bytes → ∀ d, d < 256 → (fun index => if index < bytes then prefixLoop 256 0 0 (c2 index) else c2 index) k d = startOf (digit f k) xs d := by
    intro k hk d hd
    dsimp only
    rw [if_pos hk]
    exact prefixLoop_spec 256 0 0 _ (by simp [startOf]) (fun e _ => by rw [hc k hk e]; omega) (fun e he => by omega) d (by omega)
  rcases hb with rfl | hb
  · refine Good.bind (Q := fun r => ∃ zs, r.2.Seg 0 zs ∧ zs.Perm xs) ?_ fun r h => Good.pure (by simpa using h)
    rw [numericLoopT]
    refine Good.bind (passT_good (List.Perm.refl _) (fun x _ => digit_lt f 0 x) hs (hcc 0 (by omega))) fun r h => ?_
    exact Good.pure h
  · have := numericLoopT_even hcc (bytes / 2) 0 (b := b) (by omega) (List.Perm.refl xs) hs
    rw [show 2 * (bytes / 2) = bytes by omega] at this
    simp only [hb, beq_self_eq_true]
    exact Good.bind this fun r h => Good.pure (by simpa using h)

theorem componentLoopT_good {g : Nat → Mem α → Mem α → Traced (Both α) (Mem α × Mem α × Bool)} {n : Nat}
    (hg : ∀ i {xs : List α} {s b : Mem α}, xs.length = n → s.Seg 0 xs → HeldT xs (g i s b)) {xs : List α} (hn : xs.length = n) :
    ∀ (k : Nat) {ys : List α} {s b : Mem α} {which : Bool}, ys.Perm xs → (if which then b else s).Seg 0 ys → HeldT xs (componentLoopT g k s b which)
  | 0, ys, s, b, which, hy, hs => Good.pure ⟨ys, hs, hy⟩
  | k + 1, ys, s, b, which, hy, hs => by
    have hyl : ys.length = n := hy.length_eq.trans hn
    rw [componentLoopT]
    cases which with
    | false =>
      rw [if_neg Bool.false_ne_true] at hs ⊢
      refine Good.bind ((hg k (b := b) hyl hs).mono (fun _ h => h.perm hy) fun _ h => h) ?_
      rintro r ⟨zs, h1, h2⟩
      exact componentLoopT_good hg hn k (h2.trans hy) h1
    | true =>
      rw [if_pos rfl] at hs ⊢
      refine Good.bind (Good.flip ((hg k (b := s) hyl hs).mono (fun _ h => h.perm hy) fun _ h => h) fun _ h => h.swap) ?_
      rintro r ⟨zs, h1, h2⟩
      refine componentLoopT_good hg hn k (h2.trans hy) ?_
      cases hw : r.2.2 <;> simpa [hw] using h1

theorem doubleBufferedImplT_good : ∀ (d : Desc α), d.WF → ∀ {xs : List α} {s b : Mem α}, s.Seg 0 xs → HeldT xs (doubleBufferedImplT xs.length d s b)
  | .bool f, _, xs, s, b, hs => boolSortT_good hs
  | .num bytes f, hw, xs, s, b, hs => numericSortT_good hw.1 hs
  | .list none len elem, hw, xs, s, b, hs => Good.lift fun _ h => by cases h
  | .list (some k) len elem, hw, xs, s, b, hs =>
    componentLoopT_good (n := xs.length) (fun i ys s b hl hs => hl ▸ doubleBufferedImplT_good (elem i) (hw.2 i) hs) rfl k (List.Perm.refl _) hs
  | .tuple k comp, hw, xs, s, b, hs =>
    componentLoopT_good (n := xs.length) (fun i ys s b hl hs => hl ▸ doubleBufferedImplT_good (comp i) (hw i) hs) rfl k (List.Perm.refl _) hs

/-- The full claim is that a key function that throws leaves the elements in the source. What is left is weaker: `double_buffered_ska_sort` moves elements to
and fro, and if the key function throws, whichever call it is, each element is in a place of its own in the source or in the buffer. Nothing tells
the caller which, and the other places hold what was moved from: see `C87_double_buffered_violated`. -/
theorem C87_double_buffered_partial {d : Desc α} (hw : d.WF) {xs : List α} {s b : Mem α} (hs : s.Seg 0 xs) (tiny : Bool) (k : Nat) (sb : Both α)
    (h : (doubleBufferedSortT tiny d xs.length xs.length s b).thrown k = some sb) : Held xs sb := by
  have : Good (Held xs) (fun _ => True) (doubleBufferedSortT tiny d xs.length xs.length s b) := by
    rw [doubleBufferedSortT]
    split
    · exact Good.pure trivial
    · rw [if_pos rfl]
      exact (doubleBufferedImplT_good d hw hs).mono (fun _ h => h) fun _ _ => trivial
  exact this.1 _ (List.mem_of_getElem? h)

/-! ## The first calls -/

/-- The first `n` calls see what was there at the start, or there is no call and nothing changes. -/
def Starts (n : Nat) (s b : Mem α) (t : Traced (Both α) (Mem α × Mem α × Bool)) : Prop :=
  (∃ rest, t.1 = List.replicate n (s, b) ++ rest) ∨ t.1 = [] ∧ t.2 = some (s, b, false)

theorem bind_fst_some {S R R' : Type} {t : Traced S R} {g : R → Traced S R'} {r : R} (h : t.2 = some r) : (t >>= g).1 = t.1 ++ (g r).1 := by
  show (Traced.bind t g).1 = _
  rw [Traced.bind, h]

theorem bind_fst_prefix {S R R' : Type} (t : Traced S R) (g : R → Traced S R') : ∃ rest, (t >>= g).1 = t.1 ++ rest := by
  show ∃ rest, (Traced.bind t g).1 = _
  rw [Traced.bind]
  cases t.2 with
  | none => exact ⟨[], by simp⟩
  | some r => exact ⟨_, rfl⟩

theorem countLoopT_fst {p : α → Bool} {s b : Mem α} : ∀ {xs : List α} {i c : Nat}, s.Seg i xs → (countLoopT p s b xs.length i c).1 = List.replicate xs.length (s, b)
  | [], _, _, _ => rfl
  | x :: xs, i, c, h => by
    rw [Mem.seg_cons] at h
    rw [List.length_cons, countLoopT, bind_fst_some (r := x) h.1, bind_fst_some (r := ()) rfl, countLoopT_fst h.2]; rfl

theorem histogramT_fst {f : α → Nat} {bytes : Nat} {s b : Mem α} : ∀ {xs : List α} {i : Nat} {c : Nat → Nat → Nat}, s.Seg i xs →
    (histogramT f bytes s b xs.length i c).1 = List.replicate xs.length (s, b)
  | [], _, _, _ => rfl
  | x :: xs, i, c, h => by
    rw [Mem.seg_cons] at h
    rw [List.length_cons, histogramT, bind_fst_some (r := x) h.1, bind_fst_some (r := ()) rfl, histogramT_fst h.2]; rfl

theorem componentLoopT_starts {g : Nat → Mem α → Mem α → Traced (Both α) (Mem α × Mem α × Bool)} {n : Nat} {s b : Mem α} (hg : ∀ i, Starts n s b (g i s b)) :
    ∀ k, Starts n s b (componentLoopT g k s b false)
  | 0 => .inr ⟨rfl, rfl⟩
  | k + 1 => by
    rw [componentLoopT, if_neg Bool.false_ne_true]
    rcases hg k with ⟨rest, e⟩ | ⟨e1, e2⟩
    · obtain ⟨r', e'⟩ := bind_fst_prefix (g k s b) fun r => componentLoopT g k r.1 r.2.1 r.2.2
      exact .inl ⟨rest ++ r', by rw [e', e, List.append_assoc]⟩
    · rcases componentLoopT_starts hg k with ⟨rest, e⟩ | ⟨e3, e4⟩
      · exact .inl ⟨rest, by rw [bind_fst_some e2, e1]; exact e⟩
      · exact .inr ⟨by rw [bind_fst_some e2, e1]; exact e3, by rw [bind_snd, e2]; exact e4⟩

theorem doubleBufferedImplT_starts {xs : List α} {s b : Mem α} (hs : s.Seg 0 xs) : ∀ (d : Desc α), d.Sized → Starts xs.length s b (doubleBufferedImplT xs.length d s b)
  | .bool f, _ => by
    rw [doubleBufferedImplT]
    obtain ⟨r1, e1⟩ := bind_fst_prefix (boolSortCopyT f xs.length s b) fun r => pure (r.1, r.2, true)
    obtain ⟨r2, e2⟩ := bind_fst_prefix (countLoopT (fun x => !f x) s b xs.length 0 0) fun c => boolLoopT f xs.length xs.length 0 0 c s b
    exact .inl ⟨r2 ++ r1, by rw [e1, boolSortCopyT, e2, countLoopT_fst hs, List.append_assoc]⟩
  | .num bytes f, _ => by
    rw [doubleBufferedImplT, numericSortT]
    obtain ⟨r, e⟩ := bind_fst_prefix (histogramT f bytes s b xs.length 0 fun _ _ => 0) fun c =>
      numericLoopT f (bytes % 2 == 0) xs.length (fun index => if index < bytes then prefixLoop 256 0 0 (c index) else c index) bytes 0 s b >>= fun sb =>
        pure (sb.1, sb.2, bytes % 2 == 1)
    exact .inl ⟨r, by rw [e, histogramT_fst hs]⟩
  | .list none _ _, hz => absurd rfl hz.1
  | .list (some k) _ elem, hz => componentLoopT_starts (fun i => doubleBufferedImplT_starts hs (elem i) (hz.2 i)) k
  | .tuple k comp, hz => componentLoopT_starts (fun i => doubleBufferedImplT_starts hs (comp i) (hz i)) k

/-- A key function that throws for an element before it has been called once for all of them (while the keys are counted for the first time) leaves both ranges as
they were. -/
theorem C87_double_buffered_counting {d : Desc α} (hz : d.Sized) {xs : List α} {s b : Mem α} (hs : s.Seg 0 xs) (tiny : Bool) {k : Nat} (hk : k < xs.length)
    (sb : Both α) (h : (doubleBufferedSortT tiny d xs.length xs.length s b).thrown k = some sb) : sb = (s, b) := by
  rw [doubleBufferedSortT] at h
  cases tiny with
  | true => cases h
  | false =>
    rw [if_neg Bool.false_ne_true, if_pos rfl] at h
    rcases doubleBufferedImplT_starts (b := b) hs d hz with ⟨rest, e⟩ | ⟨e, -⟩
    · rw [thrown, e, List.getElem?_append_left (by simpa using hk), List.getElem?_replicate, if_pos hk] at h
      exact (Option.some.inj h).symm
    · rw [thrown, e] at h; cases h

/-- One byte keys. -/
def byteKey : Desc Nat := .num 1 fun x => x % 256

theorem byteKey_wf : byteKey.WF ∧ byteKey.Sized := ⟨⟨.inl rfl, fun x => Nat.mod_lt _ (by omega)⟩, trivial⟩

/-- The key function throws when it is called for the last time (call number 3): of the elements `{1, 0}` only the `0` is left in the source. The `1` is in
the buffer. -/
theorem C87_double_buffered_violated :
    ((doubleBufferedSortT false byteKey 2 2 (fun a => [1, 0][a]?) (fun a => [7, 7][a]?)).thrown 3).map
      (fun sb => ([0, 1].map sb.1, [0, 1].map sb.2)) = some ([none, some 0], [some 7, some 1]) := by decide +kernel

/-! ## `ska_sort` -/

theorem Prog.Fine.traced {S Q R : Type} {strict : Bool} {P : S → Prop} {post : Nat → R → Prop} (f : Q → Bool) : ∀ {a : Ask S Q (Option R)} {n : Nat}, Prog.Fine strict P post n a →
    Good P (fun r => ∃ n, post n r) (a.traced f)
  | .done none, n, _ => ⟨by rintro _ ⟨⟩, by rintro _ ⟨⟩⟩
  | .done (some r), n, h => Good.pure (r := r) ⟨n, h⟩
  | .ask s q k, n, h => by
    have := Fine.traced f (h.2 (f q))
    refine ⟨fun s' hs => ?_, this.2⟩
    rcases List.mem_cons.1 hs with rfl | hs
    · exact h.1
    · exact this.1 s' hs

section Keep
variable {Inv : Mem α → Prop} (hswap : ∀ m i j m', Inv m → m.swapAt i j = some m' → Inv m')

open Prog

theorem fine_lift {S Q R R' : Type} {P : S → Prop} {x : Option R} {g : R → Prog S Q R'} {post : Nat → R' → Prop} {n : Nat}
    (H : ∀ r, x = some r → Fine false P post n (g r)) : Fine false P post n (lift x >>= g : Prog S Q R') :=
  Fine.seq (Fine.lift (fun h => by cases h) H)

theorem findIfNotA_keep {m : Mem α} (hm : Inv m) (first last n : Nat) : Fine false Inv (fun _ _ => True) n (findIfNotA m (ask1 m) first last) := by
  have hp := calls1_not (calls1_call m (id : α → α))
  rw [findIfNotA, findIfA]
  split
  · have : ∀ j a n, Fine false Inv (fun _ _ => True) n (findIfLoopA m (notFn (ask1 m)) j a) := by
      intro j
      induction j with
      | zero => exact fun _ _ => Fine.pure trivial
      | succ j ih =>
        intro a n
        refine fine_lift fun v _ => fine_call1 hp hm fun b => ?_
        split
        · exact Fine.pure trivial
        · exact ih _ _
    exact this _ _ _
  · exact Fine.lift (fun h => by cases h) fun r h => by cases h

theorem advanceLastA_keep {m : Mem α} (hm : Inv m) (first : Nat) : ∀ k n, Fine false Inv (fun _ _ => True) n (advanceLastA m first k)
  | 0, _ => Fine.pure trivial
  | k + 1, n => by
    refine fine_lift fun v _ => fine_call1 (calls1_call m id) hm fun b => ?_
    split
    · exact Fine.pure trivial
    · exact advanceLastA_keep hm first k _

include hswap

theorem partitionLoopA_keep : ∀ (f : Nat) {m : Mem α} (first last n : Nat), Inv m → Fine false Inv (fun _ r => Inv r.1) n (partitionLoopA f m first last)
  | 0, _, _, _, _, _ => Fine.lift (fun h => by cases h) fun r h => by cases h
  | f + 1, m, first, last, n, hm => by
    rw [partitionLoopA]
    split
    · exact Fine.pure hm
    · refine fine_lift fun m' e => ?_
      have hm' := hswap _ _ _ _ hm e
      refine Fine.seq (Fine.mono (fun _ h => h) (fun n' r _ => ?_) (findIfNotA_keep hm' first last n))
      split
      · exact Fine.pure hm'
      · exact Fine.seq (Fine.mono (fun _ h => h) (fun n2 r2 _ => partitionLoopA_keep f _ _ _ hm') (advanceLastA_keep hm' _ _ n'))

theorem partitionT_keep {m : Mem α} (hm : Inv m) (p : α → Bool) (first last : Nat) : Good Inv (fun r => Inv r.1) (partitionT m p first last) := by
  have : Fine false Inv (fun _ r => Inv r.1) 0 (partitionA true m first last) := by
    rw [partitionA]
    refine Fine.seq (Fine.mono (fun _ h => h) (fun n1 r1 _ => ?_) (findIfNotA_keep hm first last 0))
    rw [if_pos rfl]
    exact Fine.seq (Fine.mono (fun _ h => h) (fun n2 r2 _ => partitionLoopA_keep hswap _ _ _ _ hm) (advanceLastA_keep hm _ _ n1))
  exact (Fine.traced p this).mono (fun _ h => h) fun r ⟨_, h⟩ => h

omit hswap

/-- A sort that keeps `Inv`, also when it is left by an exception. -/
def Keeps (Inv : Mem α → Prop) (g : SorterT α) : Prop := ∀ m first n, Inv m → Good Inv (fun r => Inv r.1) (g m first n)

theorem good_lift {S R R' : Type} {P : S → Prop} {Q : R' → Prop} {x : Option R} {g : R → Traced S R'} (H : ∀ r, x = some r → Good P Q (g r)) :
    Good P Q (lift x >>= g : Traced S R') := Good.bind (Good.lift fun r h => h) H

theorem good_call {S R' : Type} {P : S → Prop} {Q : R' → Prop} {s : S} {g : Unit → Traced S R'} (hs : P s) (H : Good P Q (g ())) :
    Good P Q (Traced.call s >>= g : Traced S R') := Good.bind (Q := fun _ => True) (Good.call hs trivial) fun _ _ => H

theorem good_none {S R : Type} {P : S → Prop} {Q : R → Prop} : Good P Q (lift none : Traced S R) := Good.lift fun _ h => by cases h

/-- The same for sorts that may be missing. -/
def KeepsNext (Inv : Mem α → Prop) (next : Option (SorterT α)) : Prop := ∀ g, next = some g → Keeps Inv g

theorem runNextT_keep {next : Option (SorterT α)} (h : KeepsNext Inv next) : Keeps Inv (runNextT next) := fun m first n hm => by
  cases next with
  | none => exact Good.pure hm
  | some g => exact h g rfl m first n hm

theorem sortManyT_keep {g : SorterT α} (h : Keeps Inv g) : Keeps Inv (sortManyT g) := fun m first n hm => by
  rw [sortManyT]
  split
  · exact h m first n hm
  · exact Good.pure hm

theorem partitionCountsT_keep (dg : α → Nat) {m : Mem α} (hm : Inv m) (first n : Nat) : Good Inv (fun _ => True) (partitionCountsT dg m first n) := by
  have : ∀ k it c, Good Inv (fun _ => True) (digitCountsT dg m k it c) := by
    intro k
    induction k with
    | zero => exact fun _ _ => Good.pure trivial
    | succ k ih => exact fun it c => good_lift fun v _ => good_call hm (ih _ _)
  exact Good.bind (this _ _ _) fun _ _ => Good.pure trivial

include hswap

theorem flagLoopT_keep (dg : α → Nat) (ps : Parts) (first n : Nat) : ∀ (f : Nat) {m : Mem α} (offset : Nat → Nat) (ci it : Nat), Inv m →
    Good Inv (fun r => Inv r.1) (flagLoopT dg ps first n f m offset ci it)
  | 0, _, _, _, _, _ => good_none
  | f + 1, m, offset, ci, it, hm => by
    rw [flagLoopT]
    refine good_lift fun v _ => good_call hm (good_lift fun cur _ => ?_)
    split
    · split
      · exact Good.pure hm
      · split
        · refine good_lift fun r _ => ?_
          cases r with
          | none => exact Good.pure hm
          | some c => exact good_lift fun _ _ => flagLoopT_keep dg ps first n f _ _ _ hm
        · exact flagLoopT_keep dg ps first n f _ _ _ hm
    · split
      · exact good_lift fun m' e => flagLoopT_keep dg ps first n f _ _ _ (hswap _ _ _ _ hm e)
      · exact good_none

omit hswap in
theorem flagRecurseT_keep {rec : SorterT α} (h : Keeps Inv rec) (ps : Parts) (first : Nat) : ∀ (ds : List Nat) (start : Nat) {m : Mem α}, Inv m →
    Good Inv (fun r => Inv r.1) (flagRecurseT rec ps first ds start m)
  | [], _, _, hm => Good.pure hm
  | d :: ds, start, m, hm => by
    rw [flagRecurseT]
    exact Good.bind (sortManyT_keep h _ _ _ hm) fun r hr => Good.bind (flagRecurseT_keep h ps first ds _ hr) fun r' hr' => Good.pure hr'

theorem americanFlagSortT_keep (dg : α → Nat) (done : Bool) {rec : SorterT α} (h : Keeps Inv rec) : Keeps Inv (americanFlagSortT dg done rec) := fun m first n hm => by
  rw [americanFlagSortT]
  refine Good.bind (partitionCountsT_keep dg hm first n) fun ps _ => Good.bind (Q := fun r => Inv r.1) ?_ fun r hr => ?_
  · rw [flagMoveT]
    split
    · exact flagLoopT_keep hswap dg ps first n _ _ _ _ hm
    · exact Good.pure hm
  · split
    · exact Good.pure hr
    · exact flagRecurseT_keep h ps first _ _ hr

theorem skaBlockT_keep (dg : α → Nat) (first n : Nat) : ∀ (k it : Nat) {st : SkaState α}, Inv st.1 → Good Inv (fun r => Inv r.1) (skaBlockT dg first n k it st)
  | 0, _, _, hm => Good.pure hm
  | k + 1, it, st, hm => by
    rw [skaBlockT]
    refine good_lift fun v _ => good_call hm ?_
    split
    · refine good_lift fun m' e => skaBlockT_keep dg first n k _ ?_
      split at e
      · exact hswap _ _ _ _ hm e
      · injection e with e; exact e ▸ hm
    · exact good_none

theorem skaPredicateT_keep (dg : α → Nat) (ps : Parts) (first n : Nat) (st : SkaState α) (x : Nat) (hm : Inv st.1) :
    Good Inv (fun r => Inv r.2.1) (skaPredicateT dg ps first n st x) := by
  rw [skaPredicateT]
  split
  · exact Good.pure hm
  · exact Good.bind (skaBlockT_keep hswap dg first n _ _ hm) fun r hr => Good.pure hr

omit hswap

section
variable {S σ : Type} {P : S → Prop} {J : σ → Prop} {p : σ → Nat → Traced S (Bool × σ)} (hp : ∀ st x, J st → Good P (fun r => J r.2) (p st x))
include hp

theorem findNotST_keep (rem : List Nat) : ∀ (k i : Nat) {st : σ}, J st → Good P (fun r => J r.2) (findNotST p rem k i st)
  | 0, _, _, h => Good.pure h
  | k + 1, i, st, h => by
    rw [findNotST]
    refine good_lift fun x _ => Good.bind (hp st x h) fun r hr => ?_
    split
    · exact findNotST_keep rem k _ hr
    · exact Good.pure hr

theorem advanceLastST_keep (rem : List Nat) (first : Nat) : ∀ (k : Nat) {st : σ}, J st → Good P (fun r => J r.2) (advanceLastST p rem first k st)
  | 0, _, h => Good.pure h
  | k + 1, st, h => by
    rw [advanceLastST]
    refine good_lift fun x _ => Good.bind (hp st x h) fun r hr => ?_
    split
    · exact Good.pure hr
    · exact advanceLastST_keep rem first k hr

theorem partitionLoopST_keep : ∀ (f : Nat) (rem : List Nat) (first last : Nat) {st : σ}, J st → Good P (fun r => J r.2.2) (partitionLoopST p f rem first last st)
  | 0, _, _, _, _, _ => good_none
  | f + 1, rem, first, last, st, h => by
    rw [partitionLoopST]
    split
    · exact Good.pure h
    · refine good_lift fun a _ => good_lift fun b _ => Good.bind (findNotST_keep hp _ _ _ h) fun r hr => ?_
      split
      · exact Good.pure hr
      · exact Good.bind (advanceLastST_keep hp _ _ _ hr) fun l hl => partitionLoopST_keep f _ _ _ hl

theorem skaLoopT_keep : ∀ (f : Nat) (rem : List Nat) (last : Nat) {st : σ}, J st → Good P (fun r => J r.2) (skaLoopT p f rem last st)
  | 0, _, _, _, _ => good_none
  | f + 1, rem, last, st, h => by
    rw [skaLoopT]
    split
    · refine Good.bind (Q := fun r => J r.2.2) ?_ fun r hr => skaLoopT_keep f _ _ hr
      rw [partitionST]
      exact Good.bind (findNotST_keep hp _ _ _ h) fun r hr => Good.bind (advanceLastST_keep hp _ _ _ hr) fun l hl => partitionLoopST_keep hp _ _ _ _ hl
    · exact Good.pure h

end

theorem skaRecurseT_keep {rec : SorterT α} (h : Keeps Inv rec) (ps : Parts) (first : Nat) : ∀ (ds : List Nat) {m : Mem α}, Inv m →
    Good Inv (fun r => Inv r.1) (skaRecurseT rec ps first ds m)
  | [], _, hm => Good.pure hm
  | d :: ds, m, hm => by
    rw [skaRecurseT]
    exact Good.bind (sortManyT_keep h _ _ _ hm) fun r hr => Good.bind (skaRecurseT_keep h ps first ds hr) fun r' hr' => Good.pure hr'

include hswap

theorem skaByteSortT_keep (dg : α → Nat) {rec : SorterT α} (h : Keeps Inv rec) : Keeps Inv (skaByteSortT dg rec) := fun m first n hm => by
  rw [skaByteSortT]
  refine Good.bind (partitionCountsT_keep dg hm first n) fun ps _ => ?_
  exact Good.bind (skaLoopT_keep (J := fun st : SkaState α => Inv st.1) (skaPredicateT_keep hswap dg ps first n) _ _ _ hm) fun r hr => skaRecurseT_keep h ps first _ hr

variable {P : SkaParamsT α} (hstd : ∀ m first n, Inv m → Good Inv Inv (P.std m first n))
include hstd

omit hswap in
theorem stdSortT_keep : Keeps Inv P.stdSort := fun m first n hm => Good.bind (hstd m first n hm) fun r hr => Good.pure hr

theorem sortSelectorT_keep (f : α → Nat) {next : Option (SorterT α)} (h : KeepsNext Inv next) : ∀ r, Keeps Inv (sortSelectorT P f next r)
  | 0 => runNextT_keep h
  | r + 1 => fun m first n hm => by
    rw [sortSelectorT]
    split
    · exact stdSortT_keep hstd m first n hm
    · split
      · exact americanFlagSortT_keep hswap _ _ (sortSelectorT_keep f h r) m first n hm
      · exact skaByteSortT_keep hswap _ (sortSelectorT_keep f h r) m first n hm

omit hswap hstd in
theorem commonPrefixT_keep (len : α → Nat) (eq : Nat → α → α → Bool) (start : Nat) {m : Mem α} (hm : Inv m) (first : Nat) : ∀ n,
    Good Inv (fun _ => True) (commonPrefixT len eq start m first n)
  | 0 => Good.pure trivial
  | n + 1 => by
    have : ∀ x k it l, Good Inv (fun _ => True) (prefixScanT len eq start m x k it l) := by
      intro x k
      induction k with
      | zero => exact fun _ _ => Good.pure trivial
      | succ k ih =>
        intro it l
        refine good_lift fun y _ => good_call hm ?_
        split
        · exact ih _ _
        · exact good_none
    refine good_lift fun x _ => good_call hm ?_
    split
    · exact this _ _ _ _
    · exact good_none

omit hstd in
theorem listStepT_keep {len : α → Nat} {eq : Nat → α → α → Bool} {e : Nat → Option (SorterT α) → SorterT α} (he : ∀ i next, KeepsNext Inv next → Keeps Inv (e i next))
    {next : Option (SorterT α)} (h : KeepsNext Inv next) {r : Nat → SorterT α} (hr : ∀ i, Keeps Inv (r i)) (idx : Nat) : Keeps Inv (listStepT len eq e next r idx) :=
  fun m first n hm => by
    rw [listStepT]
    refine Good.bind (commonPrefixT_keep len eq idx hm first n) fun k _ => Good.bind (partitionT_keep hswap hm _ _ _) fun p hp => ?_
    refine Good.bind (sortManyT_keep (runNextT_keep h) _ _ _ hp) fun r1 h1 => ?_
    exact Good.bind (sortManyT_keep (he _ _ fun g hg => by injection hg with hg; exact hg ▸ hr _) _ _ _ h1) fun r2 h2 => Good.pure h2

theorem listSortT_keep {len : α → Nat} {eq : Nat → α → α → Bool} {e : Nat → Option (SorterT α) → SorterT α} (he : ∀ i next, KeepsNext Inv next → Keeps Inv (e i next))
    {next : Option (SorterT α)} (h : KeepsNext Inv next) : ∀ limit idx, Keeps Inv (listSortT P len eq e next limit idx)
  | 0, idx => listStepT_keep hswap he h (fun _ => stdSortT_keep hstd) idx
  | limit + 1, idx => listStepT_keep hswap he h (fun i => listSortT_keep he h limit i) idx

theorem inplaceSortT_keep : ∀ (d : Desc α) {next : Option (SorterT α)}, KeepsNext Inv next → Keeps Inv (inplaceSortT P d next)
  | .bool f, next, h => fun m first n hm => by
    rw [inplaceSortT]
    refine Good.bind (partitionT_keep hswap hm _ _ _) fun p hp => Good.bind (runNextT_keep h _ _ _ hp) fun r1 h1 => ?_
    exact Good.bind (runNextT_keep h _ _ _ h1) fun r2 h2 => Good.pure h2
  | .num bytes f, next, h => sortSelectorT_keep hswap hstd f h bytes
  | .list _ len elem, next, h => listSortT_keep hswap hstd (fun i _ h' => inplaceSortT_keep (elem i) h') h 15 0
  | .tuple _ comp, next, h => inplaceSortT_keep (comp 0) h

theorem sortStarterT_keep : ∀ ds : List (Desc α), KeepsNext Inv (sortStarterT P ds)
  | [] => fun _ h => by cases h
  | d :: ds => fun g hg m first n hm => by
    injection hg with hg
    subst hg
    dsimp only
    split
    · exact Good.pure hm
    · exact inplaceSortT_keep hswap hstd d (sortStarterT_keep ds) m first n hm

end Keep

/-- The sort of the standard library may only be called for elements that are there. -/
def checked (std : Mem α → Nat → Nat → Traced (Mem α) (Mem α)) (m : Mem α) (first n : Nat) : Traced (Mem α) (Mem α) :=
  if ∀ i, i < n → (m (first + i)).isSome then std m first n else lift none

/-- A sort of the standard library that keeps the elements in the range when the comparison throws. The standard does not promise this. -/
def KeepsElements (std : Mem α → Nat → Nat → Traced (Mem α) (Mem α)) : Prop :=
  ∀ (m : Mem α) (first : Nat) (xs : List α), m.Seg first xs → Good (Shuffled first xs.length m) (Shuffled first xs.length m) (std m first xs.length)

theorem seg_of_isSome {m : Mem α} {first : Nat} : ∀ {n : Nat}, (∀ i, i < n → (m (first + i)).isSome) → ∃ xs : List α, xs.length = n ∧ m.Seg first xs
  | 0, _ => ⟨[], rfl, Mem.seg_nil _ _⟩
  | n + 1, h => by
    obtain ⟨xs, hl, hs⟩ := seg_of_isSome (n := n) fun i hi => h i (by omega)
    obtain ⟨v, hv⟩ := Option.isSome_iff_exists.1 (h n (by omega))
    refine ⟨xs ++ [v], by simp [hl], ?_⟩
    rw [Mem.seg_append, hl, Mem.seg_cons]
    exact ⟨hs, hv, Mem.seg_nil _ _⟩

section
variable {m : Mem α} {first : Nat} {xs : List α} (hs : m.Seg first xs) (hm : ∀ a, ¬ InRange first xs.length a → m a = none)
include hs hm

theorem shuffled_swap (s : Mem α) (i j : Nat) (s' : Mem α) (h : Shuffled first xs.length m s) (e : s.swapAt i j = some s') : Shuffled first xs.length m s' := by
  obtain ⟨ys, p, hy⟩ := h.perm xs rfl hs
  have hin : ∀ a v, s a = some v → InRange first xs.length a := fun a v ha => by
    by_contra hc
    rw [h.rest a hc, hm a hc] at ha; cases ha
  have h1 : ∃ v w, s i = some v ∧ s j = some w := by
    rw [Mem.swapAt] at e
    split at e
    · rename_i v w hv hw; exact ⟨v, w, hv, hw⟩
    · cases e
  obtain ⟨v, w, hv, hw⟩ := h1
  have hi := hin i v hv
  have hj := hin j w hw
  simp only [InRange] at hi hj
  have hl := p.length_eq
  obtain ⟨s2, ys2, e2, hsh, -⟩ := Shuffled.swap hy (i := i - first) (j := j - first) (by omega) (by omega)
  rw [show first + (i - first) = i by omega, show first + (j - first) = j by omega, e] at e2
  injection e2 with e2
  rw [hl] at hsh
  exact h.trans (e2 ▸ hsh)

theorem checked_keep {std : Mem α → Nat → Nat → Traced (Mem α) (Mem α)} (hk : KeepsElements std) (s : Mem α) (a n : Nat) (h : Shuffled first xs.length m s) :
    Good (Shuffled first xs.length m) (Shuffled first xs.length m) (checked std s a n) := by
  rw [checked]
  split
  · rename_i hall
    obtain ⟨zs, hl, hz⟩ := seg_of_isSome hall
    subst hl
    have hsub : ∀ t, Shuffled a zs.length s t → Shuffled first xs.length m t := by
      intro t ht
      rcases Nat.eq_zero_or_pos zs.length with h0 | h0
      · have : t = s := funext fun x => ht.rest x fun hx => by simp only [InRange] at hx; omega
        rw [this]; exact h
      · have hin : ∀ i, i < zs.length → InRange first xs.length (a + i) := fun i hi => by
          by_contra hc
          have := hz i hi
          rw [h.rest _ hc, hm _ hc] at this; cases this
        have h1 := hin 0 h0
        have h2 := hin (zs.length - 1) (by omega)
        simp only [InRange] at h1 h2
        rw [show a = first + (a - first) by omega] at ht
        exact h.trans (ht.sub (by omega))
    exact (hk s a zs hz).mono hsub hsub
  · exact good_none

end

/-- `ska_sort` with a key function that throws, in a memory that holds the range and nothing else: whichever call throws, the elements are all in the range, in some order. If no call
throws, the sort returns and this holds as well. This is relative to a sort of the standard library that does not lose elements. Missing: that other elements in
memory do not take part while the sort runs (for a sort that returns see `C42_permutation`). -/
theorem C87_ska_sort_partial {d : Desc α} (hw : d.WF) (hn : d.NonEmpty) {std : Mem α → Nat → Nat → Traced (Mem α) (Mem α)}
    (hsort : SortsBy d.less fun m first n => (std m first n).2) (hk : KeepsElements std) {m : Mem α} {first : Nat} {xs : List α} (hs : m.Seg first xs)
    (hm : ∀ a, ¬ InRange first xs.length a → m a = none) :
    (∃ m' e ys, (skaSortT (checked std) d m first xs.length).2 = some (m', e) ∧ m'.Seg first ys ∧ ys.Perm xs) ∧
      ∀ k s, (skaSortT (checked std) d m first xs.length).thrown k = some s → (∃ ys, s.Seg first ys ∧ ys.Perm xs) ∧ ∀ a, ¬ InRange first xs.length a → s a = none := by
  constructor
  · have hsort' : SortsBy d.less fun m first n => (checked std m first n).2 := by
      intro m first xs hs
      have : ∀ i, i < xs.length → (m (first + i)).isSome := fun i hi => by rw [hs i hi]; rfl
      simp only [checked, if_pos this]
      exact hsort m first xs hs
    obtain ⟨m', ys, e, h1, h2, h3, -⟩ := C42_permutation hw hn hsort' hs
    exact ⟨m', e, ys, by rw [skaSortT_snd, h1], h2, h3⟩
  · intro k s h
    have hg := runNextT_keep (sortStarterT_keep (P := ⟨128, 1024, checked std⟩) (shuffled_swap hs hm) (checked_keep hs hm hk) d.chain) m first xs.length (Shuffled.refl ..)
    have hsh : Shuffled first xs.length m s := hg.1 s (List.mem_of_getElem? h)
    obtain ⟨ys, p, hy⟩ := hsh.perm xs rfl hs
    exact ⟨⟨ys, hy, p⟩, fun a ha => by rw [hsh.rest a ha, hm a ha]⟩

/-! ## Examples -/

/-- A sort of the standard library as assumed. -/
def refStd [DecidableEq α] (lt : α → α → Bool) (m : Mem α) (first n : Nat) : Traced (Mem α) (Mem α) := Ask.traced (uncurry2 lt) (askingSort m first n)

theorem refStd_keeps [DecidableEq α] (lt : α → α → Bool) : KeepsElements (refStd lt) := fun m first xs hs =>
  (Prog.Fine.traced (uncurry2 lt) (askingSort_fine xs.length m first xs 0 hs (Nat.le_refl _))).mono (fun _ h => h) fun r ⟨_, h⟩ => h.1

theorem refStd_sorts [DecidableEq α] {lt : α → α → Bool} (h : StrictWeak lt) : SortsBy lt fun m first n => (refStd lt m first n).2 := fun m first xs hs => by
  have := askingSort_sorts h m first xs hs
  exact (congrArg (SortsRange false lt m first xs) (Ask.traced_snd (uncurry2 lt) (askingSort m first xs.length))).mpr this

/-- There are such sorts for every key. -/
example [DecidableEq α] (d : Desc α) : KeepsElements (refStd d.less) ∧ SortsBy d.less fun m first n => (refStd d.less m first n).2 :=
  ⟨refStd_keeps _, refStd_sorts d.less_strictWeak⟩

/-- Three elements by a boolean key, and what is in memory at each of the calls: the exception of any of them leaves the elements there. -/
example : ((skaSortT (checked (refStd (Desc.bool (fun x : Nat => x % 2 == 1)).less)) (.bool fun x => x % 2 == 1) (only [1, 3, 2]) 0 3).1.map fun s => [0, 1, 2].map s) =
    [[some 1, some 3, some 2], [some 1, some 3, some 2], [some 2, some 3, some 1], [some 2, some 3, some 1], [some 2, some 3, some 1]] := by decide +kernel

example : Desc.WF (.bool fun x : Nat => x % 2 == 1) ∧ Desc.NonEmpty (.bool fun x : Nat => x % 2 == 1) ∧ ∀ a, ¬ InRange 0 3 a → only [1, 3, 2] a = none := by
  refine ⟨trivial, trivial, fun a ha => ?_⟩
  simp only [InRange] at ha
  simp only [only]
  exact List.getElem?_eq_none (by simp; omega)

/-- The hypotheses of the claims about `double_buffered_ska_sort`, and the states at its four calls: the first two leave everything in place, the last two are in
the middle of moving. -/
example : byteKey.WF ∧ byteKey.Sized ∧ Mem.Seg (fun a => [1, 0][a]?) 0 [1, 0] ∧
    ((doubleBufferedSortT false byteKey 2 2 (fun a => [1, 0][a]?) (fun a => [7, 7][a]?)).1.map fun sb => ([0, 1].map sb.1, [0, 1].map sb.2)) =
      [([some 1, some 0], [some 7, some 7]), ([some 1, some 0], [some 7, some 7]), ([some 1, some 0], [some 7, some 7]), ([none, some 0], [some 7, some 1])] :=
  ⟨byteKey_wf.1, byteKey_wf.2, fun _ _ => by simp, by decide +kernel⟩

end Verif.Algo
