import Verif.Algo.Reverse
import Verif.Containers.StaticVector

/-!
# Swaps of elements that throw (property C92)

`reverse` (source/containers/algorithms/reverse.cpp) and `swap` of `static_vector`
(source/containers/static_vector.cpp 122-137) exchange elements one pair after the other.
The exchange of a pair may throw, and leaves two live objects with some values then.
-/

namespace Verif.Algo

open Verif Mem

variable {α : Type}

/-- The calls of `swap` of the elements: `none` for a call that exchanges the values, or
the values that a call that throws leaves in its first and in its second argument. -/
abbrev Swaps (α : Type) := Nat → Option (α × α)

/-- One `std::ranges::swap(*a, *b)` of two different elements. -/
def swapX (sw : Option (α × α)) (m : Mem α) (a b : Nat) : Out (Mem α) :=
  match m a, m b with
  | some x, some y =>
    match sw with
    | none => .ok (upd (upd m a (some y)) b (some x))
    | some (x', y') => .exn (upd (upd m a (some x')) b (some y'))
  | _, _ => .ub

/-- reverse.cpp 31-35; `j` is the number of calls of `swap` so far. -/
def reverseLoopX (sw : Swaps α) (m : Mem α) (j : Nat) : Nat → Nat → Nat → Out (Mem α)
  | 0, _, _ => .ub
  | f + 1, first, last =>
    if first < last then (swapX (sw j) m first last).andThen fun m => reverseLoopX sw m (j + 1) f (first + 1) (last - 1)
    else .ok m

/-- reverse.cpp 22-35. -/
def reverseRandomAccessX (sw : Swaps α) (m : Mem α) (first last : Nat) : Out (Mem α) :=
  if first = last then .ok m else reverseLoopX sw m 0 (last - first) first (last - 1)

/-- reverse.cpp 36-45. -/
def reverseBidirectionalX (sw : Swaps α) (m : Mem α) (j : Nat) : Nat → Nat → Nat → Out (Mem α)
  | 0, _, _ => .ub
  | f + 1, first, last =>
    if first ≠ last then
      if first = last - 1 then .ok m
      else (swapX (sw j) m first (last - 1)).andThen fun m => reverseBidirectionalX sw m (j + 1) f (first + 1) (last - 1)
    else .ok m

/-- Memory after the ends of a sequence have been written. -/
theorem swapX_ends {m : Mem α} {b : Nat} {x y : α} {xs : List α} (h : m.Seg b (x :: (xs ++ [y]))) (x' y' : α) :
    Seg (upd (upd m b (some x')) (b + xs.length + 1) (some y') : Mem α) b (x' :: (xs ++ [y'])) ∧
      m.SameOff (upd (upd m b (some x')) (b + xs.length + 1) (some y')) (fun a => b ≤ a ∧ a < b + xs.length + 2) := by
  obtain ⟨h1, h2⟩ := seg_cons.1 h
  obtain ⟨h2, h3⟩ := seg_append.1 h2
  refine ⟨seg_cons.2 ⟨?_, seg_append.2 ⟨?_, seg_cons.2 ⟨?_, seg_nil _ _⟩⟩⟩, ?_⟩
  · rw [upd_other _ _ (by omega), upd_same]
  · intro i hi
    rw [upd_other _ _ (by omega), upd_other _ _ (by omega)]
    exact h2 i hi
  · rw [show b + 1 + xs.length = b + xs.length + 1 by omega, upd_same]
  · intro a ha
    rw [upd_other _ _ (by omega), upd_other _ _ (by omega)]

theorem swapX_eq {m : Mem α} {b : Nat} {x y : α} {xs : List α} (h : m.Seg b (x :: (xs ++ [y]))) (sw : Option (α × α)) :
    swapX sw m b (b + xs.length + 1) =
      match sw with
      | none => .ok (upd (upd m b (some y)) (b + xs.length + 1) (some x))
      | some (x', y') => .exn (upd (upd m b (some x')) (b + xs.length + 1) (some y')) := by
  obtain ⟨h1, h2⟩ := seg_cons.1 h
  obtain ⟨-, h3⟩ := seg_append.1 h2
  obtain ⟨h3, -⟩ := seg_cons.1 h3
  rw [show b + 1 + xs.length = b + xs.length + 1 by omega] at h3
  simp only [swapX, h1, h3]

/-- Frames of the pairs: what holds inside of the ends is extended by the ends. -/
theorem seg_extend {m m' : Mem α} {b : Nat} {x y : α} {xs zs : List α} (hlen : zs.length = xs.length)
    (h : m.Seg b (x :: (xs ++ [y]))) (hz : m'.Seg (b + 1) zs)
    (hs : m.SameOff m' (fun a => b + 1 ≤ a ∧ a < b + 1 + xs.length)) : m'.Seg b (x :: (zs ++ [y])) := by
  obtain ⟨h1, h2⟩ := seg_cons.1 h
  obtain ⟨-, h3⟩ := seg_append.1 h2
  obtain ⟨h3, -⟩ := seg_cons.1 h3
  refine seg_cons.2 ⟨?_, seg_append.2 ⟨hz, seg_cons.2 ⟨?_, seg_nil _ _⟩⟩⟩
  · rw [hs b (by omega), h1]
  · rw [hlen, hs _ (by omega), h3]

theorem reverseLoopX_throws (sw : Swaps α) (x' y' : α) : ∀ (p q mid : List α) (x y : α) (m : Mem α) (b f j : Nat),
    p.length = q.length → (p ++ x :: (mid ++ y :: q)).length ≤ f →
    (∀ i < p.length, sw (j + i) = none) → sw (j + p.length) = some (x', y') → m.Seg b (p ++ x :: (mid ++ y :: q)) →
    ∃ m', reverseLoopX sw m j f b (b + (p ++ x :: (mid ++ y :: q)).length - 1) = .exn m' ∧
      m'.Seg b (q.reverse ++ x' :: (mid ++ y' :: p.reverse)) ∧
      m.SameOff m' (fun a => b ≤ a ∧ a < b + (p ++ x :: (mid ++ y :: q)).length) := by
  intro p
  induction p with
  | nil =>
    intro q mid x y m b f j hq hf _ hk h
    obtain rfl : q = [] := List.eq_nil_of_length_eq_zero hq.symm
    simp only [List.nil_append, List.length_cons, List.length_append, List.length_nil, Nat.zero_add] at *
    obtain ⟨f, rfl⟩ : ∃ g, f = g + 1 := ⟨f - 1, by omega⟩
    have e := swapX_eq h (sw j)
    rw [Nat.add_zero] at hk
    rw [hk] at e
    obtain ⟨s1, s2⟩ := swapX_ends h x' y'
    refine ⟨_, ?_, by simpa using s1, ?_⟩
    · rw [show b + (mid.length + 1 + 1) - 1 = b + mid.length + 1 by omega, reverseLoopX, if_pos (by omega), hk, e]
      rfl
    · intro a ha
      exact s2 a (by omega)
  | cons u p ih =>
    intro q mid x y m b f j hq hf hj hk h
    rcases List.eq_nil_or_concat q with rfl | ⟨q, v, rfl⟩
    · simp at hq
    rw [List.concat_eq_append] at *
    have hq' : p.length = q.length := by simpa using hq
    obtain ⟨f, rfl⟩ : ∃ g, f = g + 1 := ⟨f - 1, by simp at hf; omega⟩
    have hshape : (u :: p) ++ x :: (mid ++ y :: (q ++ [v])) = u :: ((p ++ x :: (mid ++ y :: q)) ++ [v]) := by simp
    rw [hshape] at h hf ⊢
    set z := p ++ x :: (mid ++ y :: q) with hz
    have e := swapX_eq h (sw j)
    have h0 : sw j = none := by simpa using hj 0 (by simp)
    rw [h0] at e
    obtain ⟨s1, s2⟩ := swapX_ends h v u
    obtain ⟨m2, e2, g1, g2⟩ := ih q mid x y _ (b + 1) f (j + 1) hq' (show z.length ≤ f by simp only [List.length_cons, List.length_append, List.length_nil] at hf; omega)
      (fun i hi => by have := hj (i + 1) (by simp; omega); rwa [show j + 1 + i = j + (i + 1) by omega])
      (by rw [show j + 1 + p.length = j + (p.length + 1) by omega]; exact hk)
      (seg_append.1 (seg_cons.1 s1).2).1
    rw [← hz] at e2 g2
    have hlen : (q.reverse ++ x' :: (mid ++ y' :: p.reverse)).length = z.length := by
      simp [hz]; omega
    have g3 := seg_extend hlen s1 g1 g2
    refine ⟨m2, ?_, by simpa using g3, ?_⟩
    · have hpos : 0 < z.length := by simp [hz]
      simp only [List.length_cons, List.length_append, List.length_nil, Nat.zero_add]
      rw [show b + (z.length + 1 + 1) - 1 = b + z.length + 1 by omega, reverseLoopX, if_pos (by omega), h0, e]
      simp only [Out.andThen_ok]
      rw [show b + z.length + 1 - 1 = b + 1 + z.length - 1 by omega]
      exact e2
    · intro a ha
      simp only [List.length_cons, List.length_append, List.length_nil, Nat.zero_add] at ha
      rw [g2 a (by omega), s2 a (by omega)]

/-- **C92.** `reverse` of a random access range, if the exchange of the `k`-th pair is the
first one that throws: the pairs before it have changed places, the two elements of the
pair are what the throwing call left, everything between them and outside of the range is
unchanged. (The range is `p ++ x :: mid ++ y :: q` with `k` elements before `x` and after
`y`.) -/
theorem C92_reverse_random_access_throws (sw : Swaps α) (p q mid : List α) (x y x' y' : α) (m : Mem α) (b : Nat)
    (hpq : p.length = q.length) (hj : ∀ i < p.length, sw i = none) (hk : sw p.length = some (x', y'))
    (h : m.Seg b (p ++ x :: (mid ++ y :: q))) :
    ∃ m', reverseRandomAccessX sw m b (b + (p ++ x :: (mid ++ y :: q)).length) = .exn m' ∧
      m'.Seg b (q.reverse ++ x' :: (mid ++ y' :: p.reverse)) ∧
      m.SameOff m' (fun a => b ≤ a ∧ a < b + (p ++ x :: (mid ++ y :: q)).length) := by
  have hpos : 0 < (p ++ x :: (mid ++ y :: q)).length := by simp
  obtain ⟨m', e, h1, h2⟩ := reverseLoopX_throws sw x' y' p q mid x y m b (p ++ x :: (mid ++ y :: q)).length 0 hpq
    (Nat.le_refl _) (by simpa using hj) (by simpa using hk) h
  refine ⟨m', ?_, h1, h2⟩
  rw [reverseRandomAccessX, if_neg (by omega), Nat.add_sub_cancel_left]
  exact e

theorem reverseBidirectionalX_throws (sw : Swaps α) (x' y' : α) : ∀ (p q mid : List α) (x y : α) (m : Mem α) (b f j : Nat),
    p.length = q.length → (p ++ x :: (mid ++ y :: q)).length < f →
    (∀ i < p.length, sw (j + i) = none) → sw (j + p.length) = some (x', y') → m.Seg b (p ++ x :: (mid ++ y :: q)) →
    ∃ m', reverseBidirectionalX sw m j f b (b + (p ++ x :: (mid ++ y :: q)).length) = .exn m' ∧
      m'.Seg b (q.reverse ++ x' :: (mid ++ y' :: p.reverse)) ∧
      m.SameOff m' (fun a => b ≤ a ∧ a < b + (p ++ x :: (mid ++ y :: q)).length) := by
  intro p
  induction p with
  | nil =>
    intro q mid x y m b f j hq hf _ hk h
    obtain rfl : q = [] := List.eq_nil_of_length_eq_zero hq.symm
    simp only [List.nil_append, List.length_cons, List.length_append, List.length_nil, Nat.zero_add] at *
    obtain ⟨f, rfl⟩ : ∃ g, f = g + 1 := ⟨f - 1, by omega⟩
    have e := swapX_eq h (sw j)
    rw [Nat.add_zero] at hk
    rw [hk] at e
    obtain ⟨s1, s2⟩ := swapX_ends h x' y'
    refine ⟨_, ?_, by simpa using s1, ?_⟩
    · rw [reverseBidirectionalX, if_pos (by omega), if_neg (by omega),
        show b + (mid.length + 1 + 1) - 1 = b + mid.length + 1 by omega, hk, e]
      rfl
    · intro a ha
      exact s2 a (by omega)
  | cons u p ih =>
    intro q mid x y m b f j hq hf hj hk h
    rcases List.eq_nil_or_concat q with rfl | ⟨q, v, rfl⟩
    · simp at hq
    rw [List.concat_eq_append] at *
    have hq' : p.length = q.length := by simpa using hq
    obtain ⟨f, rfl⟩ : ∃ g, f = g + 1 := ⟨f - 1, by simp at hf; omega⟩
    have hshape : (u :: p) ++ x :: (mid ++ y :: (q ++ [v])) = u :: ((p ++ x :: (mid ++ y :: q)) ++ [v]) := by simp
    rw [hshape] at h hf ⊢
    set z := p ++ x :: (mid ++ y :: q) with hz
    have e := swapX_eq h (sw j)
    have h0 : sw j = none := by simpa using hj 0 (by simp)
    rw [h0] at e
    obtain ⟨s1, s2⟩ := swapX_ends h v u
    obtain ⟨m2, e2, g1, g2⟩ := ih q mid x y _ (b + 1) f (j + 1) hq' (show z.length < f by simp only [List.length_cons, List.length_append, List.length_nil] at hf; omega)
      (fun i hi => by have := hj (i + 1) (by simp; omega); rwa [show j + 1 + i = j + (i + 1) by omega])
      (by rw [show j + 1 + p.length = j + (p.length + 1) by omega]; exact hk)
      (seg_append.1 (seg_cons.1 s1).2).1
    rw [← hz] at e2 g2
    have hlen : (q.reverse ++ x' :: (mid ++ y' :: p.reverse)).length = z.length := by
      simp [hz]; omega
    have g3 := seg_extend hlen s1 g1 g2
    refine ⟨m2, ?_, by simpa using g3, ?_⟩
    · simp only [List.length_cons, List.length_append, List.length_nil, Nat.zero_add]
      rw [reverseBidirectionalX, if_pos (by omega), if_neg (by omega),
        show b + (z.length + 1 + 1) - 1 = b + z.length + 1 by omega, h0, e]
      simp only [Out.andThen_ok]
      rw [show b + z.length + 1 = b + 1 + z.length by omega] at e2 ⊢
      exact e2
    · intro a ha
      simp only [List.length_cons, List.length_append, List.length_nil, Nat.zero_add] at ha
      rw [g2 a (by omega), s2 a (by omega)]

/-- **C92.** The same for bidirectional ranges. -/
theorem C92_reverse_bidirectional_throws (sw : Swaps α) (p q mid : List α) (x y x' y' : α) (m : Mem α) (b f : Nat)
    (hpq : p.length = q.length) (hf : (p ++ x :: (mid ++ y :: q)).length < f) (hj : ∀ i < p.length, sw i = none)
    (hk : sw p.length = some (x', y')) (h : m.Seg b (p ++ x :: (mid ++ y :: q))) :
    ∃ m', reverseBidirectionalX sw m 0 f b (b + (p ++ x :: (mid ++ y :: q)).length) = .exn m' ∧
      m'.Seg b (q.reverse ++ x' :: (mid ++ y' :: p.reverse)) ∧
      m.SameOff m' (fun a => b ≤ a ∧ a < b + (p ++ x :: (mid ++ y :: q)).length) :=
  reverseBidirectionalX_throws sw x' y' p q mid x y m b f 0 hpq hf (by simpa using hj) (by simpa using hk) h

/-- Without exceptions the functions are those of C54. -/
theorem reverseLoopX_none (m : Mem α) (j f a b : Nat) (sw : Swaps α) (hs : ∀ i, sw i = none) :
    reverseLoopX sw m j f a b = match reverseLoop m f a b with | some m' => .ok m' | none => .ub := by
  induction f generalizing m j a b with
  | zero => rfl
  | succ f ih =>
    rw [reverseLoopX, reverseLoop]
    split
    · simp only [swapX, swapAt, hs]
      cases m a <;> cases m b <;> first | rfl | exact ih _ _ _ _
    · rfl

theorem reverseBidirectionalX_none (m : Mem α) (j f a b : Nat) (sw : Swaps α) (hs : ∀ i, sw i = none) :
    reverseBidirectionalX sw m j f a b = match reverseBidirectional m f a b with | some m' => .ok m' | none => .ub := by
  induction f generalizing m j a b with
  | zero => rfl
  | succ f ih =>
    rw [reverseBidirectionalX, reverseBidirectional]
    split
    · split
      · rfl
      · simp only [swapX, swapAt, hs]
        cases m a <;> cases m (b - 1) <;> first | rfl | exact ih _ _ _ _
    · rfl

/-- **C92.** If no exchange throws, the range is reversed. -/
theorem C92_reverse_no_throw {m : Mem α} {first : Nat} {xs : List α} (h : m.Seg first xs) (sw : Swaps α)
    (hs : ∀ i, sw i = none) :
    (∃ m', reverseRandomAccessX sw m first (first + xs.length) = .ok m' ∧ m'.Seg first xs.reverse) ∧
    ∃ m', reverseBidirectionalX sw m 0 (xs.length + 1) first (first + xs.length) = .ok m' ∧ m'.Seg first xs.reverse := by
  constructor
  · obtain ⟨m', e, h1, -⟩ := C54_reverse_random_access h
    refine ⟨m', ?_, h1⟩
    rw [reverseRandomAccess] at e
    rw [reverseRandomAccessX]
    split
    · rename_i hh
      rw [if_pos hh] at e
      cases e; rfl
    · rename_i hh
      rw [if_neg hh] at e
      rw [reverseLoopX_none _ _ _ _ _ _ hs, e]
  · obtain ⟨m', e, h1, -⟩ := C54_reverse_bidirectional h (f := xs.length + 1) (by omega)
    exact ⟨m', by rw [reverseBidirectionalX_none _ _ _ _ _ _ hs, e], h1⟩

/-- The exchange of the middle pair throws in a range of five elements. -/
example : (match reverseRandomAccessX (fun j => if j = 1 then some (20, 40) else none) (fun a => [1, 2, 3, 4, 5][a]?) 0 5 with
    | .exn m => (List.range 5).map m
    | _ => []) = [some 5, some 20, some 3, some 40, some 1] := by decide +kernel

end Verif.Algo

namespace Verif.Containers

open Verif Verif.Algo

variable {V : Type}

/-- `std::swap_ranges` on the elements `[k, k + n)` of two blocks; the call with number `k`
exchanges the elements with the index `k`. -/
def swapRangesX (cap : Nat) (sw : Swaps V) (k : Nat) : Nat → Cells V → Cells V → Out (Cells V × Cells V)
  | 0, a, b => .ok (a, b)
  | n + 1, a, b =>
    match readCell cap a k, readCell cap b k with
    | some x, some y =>
      match sw k with
      | none => swapRangesX cap sw (k + 1) n (upd a k (some y)) (upd b k (some x))
      | some (x', y') => .exn (upd a k (some x'), upd b k (some y'))
    | _, _ => .ub

namespace Stat

/-- source/containers/static_vector.cpp 122-137 for two different vectors. An exception
leaves before the sizes are exchanged. The relocation of the remaining elements does not
throw. -/
def swapX (N : Nat) (sw : Swaps V) (o t : Stat V) : Out (Stat V × Stat V) :=
  let impl := fun (longer shorter : Stat V) =>
    (swapRangesX N sw 0 shorter.size shorter.cell longer.cell).andThen fun (s, l) =>
      match relocTo N N l s shorter.size shorter.size (longer.size - shorter.size) with
      | some (l', s') => .ok (s', l')
      | none => .ub
  if t.size ≤ o.size then
    (impl o t).bind (fun (s, l) => .ok (⟨l, t.size⟩, ⟨s, o.size⟩)) fun (s, l) => (⟨l, o.size⟩, ⟨s, t.size⟩)
  else
    (impl t o).bind (fun (s, l) => .ok (⟨s, t.size⟩, ⟨l, o.size⟩)) fun (s, l) => (⟨s, o.size⟩, ⟨l, t.size⟩)

end Stat

/-- How a call of a function ends that is declared `noexcept`. -/
inductive Ended (S : Type) where
  | ok (s : S)
  | terminated
  | ub
  deriving DecidableEq, Repr

/-- The function with the declaration: an exception calls `std::terminate`. -/
def asNoexcept {S : Type} : Out S → Ended S
  | .ok s => .ok s
  | .exn _ => .terminated
  | .ub => .ub

/-- source/containers/std/inplace_vector.cpp 346-348, 356-358: `noexcept` for all elements. -/
def inplaceSwap (N : Nat) (sw : Swaps V) (o t : Stat V) : Ended (Stat V × Stat V) := asNoexcept (Stat.swapX N sw o t)

theorem swapRangesX_none (cap : Nat) (sw : Swaps V) : ∀ (n k : Nat) (a b : Cells V), (∀ i, k ≤ i → i < k + n → sw i = none) →
    swapRangesX cap sw k n a b = match swapRanges cap k n a b with | some r => .ok r | none => .ub := by
  intro n
  induction n with
  | zero => intro k a b _; rfl
  | succ n ih =>
    intro k a b h
    rw [swapRangesX, swapRanges]
    cases readCell cap a k <;> cases readCell cap b k <;> try rfl
    simp only [h k (by omega) (by omega)]
    exact ih (k + 1) _ _ fun i h1 h2 => h i (by omega) (by omega)

/-- **C92.** If no exchange throws, `swap` of two static vectors exchanges their elements. -/
theorem C92_static_swap (N : Nat) (sw : Swaps V) (h : Heap V) (o t : Stat V) (xs ys : List V)
    (v : sinv N h o xs) (w : sinv N h t ys) (hs : ∀ i, sw i = none) :
    ∃ o' t', Stat.swapX N sw o t = .ok (o', t') ∧ sinv N h o' ys ∧ sinv N h t' xs := by
  obtain ⟨o', t', e, h1, h2⟩ := Stat.swap_ok v w
  refine ⟨o', t', ?_, h1, h2⟩
  simp only [Stat.swap] at e
  simp only [Stat.swapX]
  split at e
  · rename_i hc
    rw [if_pos hc, swapRangesX_none _ _ _ _ _ _ (fun i _ _ => hs i)]
    cases e1 : swapRanges N 0 t.size t.cell o.cell with
    | none => simp [e1] at e
    | some r =>
      obtain ⟨s, l⟩ := r
      simp only [e1, Option.bind_some] at e
      simp only [Out.andThen_ok]
      cases e2 : relocTo N N l s t.size t.size (o.size - t.size) with
      | none => simp [e2] at e
      | some r =>
        obtain ⟨l', s'⟩ := r
        simp only [e2, Option.map_some, Option.some.injEq, Prod.mk.injEq] at e
        simp only [Out.bind, e.1, e.2]
  · rename_i hc
    rw [if_neg hc, swapRangesX_none _ _ _ _ _ _ (fun i _ _ => hs i)]
    cases e1 : swapRanges N 0 o.size o.cell t.cell with
    | none => simp [e1] at e
    | some r =>
      obtain ⟨s, l⟩ := r
      simp only [e1, Option.bind_some] at e
      simp only [Out.andThen_ok]
      cases e2 : relocTo N N l s o.size o.size (t.size - o.size) with
      | none => simp [e2] at e
      | some r =>
        obtain ⟨l', s'⟩ := r
        simp only [e2, Option.map_some, Option.some.injEq, Prod.mk.injEq] at e
        simp only [Out.bind, e.1, e.2]

theorem swapRangesX_throws (cap : Nat) (sw : Swaps V) (x' y' : V) (c : Nat) (hc : sw c = some (x', y')) :
    ∀ (n k : Nat) (a b : Cells V), k ≤ c → c < k + n → k + n ≤ cap → (∀ i, k ≤ i → i < c → sw i = none) →
    (∀ j, k ≤ j → j < k + n → (a j).isSome ∧ (b j).isSome) →
    swapRangesX cap sw k n a b = .exn (fun j => if j = c then some x' else if k ≤ j ∧ j < c then b j else a j,
      fun j => if j = c then some y' else if k ≤ j ∧ j < c then a j else b j) := by
  intro n
  induction n with
  | zero => intro k a b h1 h2; omega
  | succ n ih =>
    intro k a b h1 h2 h3 hs hl
    obtain ⟨g1, g2⟩ := hl k (by omega) (by omega)
    obtain ⟨x, hx⟩ := Option.isSome_iff_exists.1 g1
    obtain ⟨y, hy⟩ := Option.isSome_iff_exists.1 g2
    simp only [swapRangesX, readCell, if_pos (show k < cap by omega), hx, hy]
    by_cases hk : k = c
    · subst hk
      simp only [hc, Out.exn.injEq, Prod.mk.injEq]
      constructor <;> funext j <;> simp only [upd] <;> split <;> first | rfl | (rw [if_neg (by omega)])
    · simp only [hs k (by omega) (by omega)]
      rw [ih (k + 1) _ _ (by omega) (by omega) (by omega) (fun i p q => hs i (by omega) q) (by
        intro j p q
        rw [upd_other _ _ (by omega), upd_other _ _ (by omega)]
        exact hl j (by omega) (by omega))]
      simp only [Out.exn.injEq, Prod.mk.injEq]
      constructor <;> funext j <;> by_cases hj : j = c
      · simp only [if_pos hj]
      · simp only [if_neg hj, upd]
        by_cases h4 : j = k
        · subst h4; rw [if_neg (by omega), if_pos rfl, if_pos (by omega), hy]
        · by_cases h5 : k ≤ j ∧ j < c
          · rw [if_pos (by omega), if_pos h5, if_neg h4]
          · rw [if_neg (by omega), if_neg h5, if_neg h4]
      · simp only [if_pos hj]
      · simp only [if_neg hj, upd]
        by_cases h4 : j = k
        · subst h4; rw [if_neg (by omega), if_pos rfl, if_pos (by omega), hx]
        · by_cases h5 : k ≤ j ∧ j < c
          · rw [if_pos (by omega), if_pos h5, if_neg h4]
          · rw [if_neg (by omega), if_neg h5, if_neg h4]

/-- The elements of one container after the exchange with `other` stopped at `c`. -/
def halfSwapped (c : Nat) (own other : List V) (left : V) : List V := other.take c ++ left :: own.drop (c + 1)

theorem cells_halfSwapped (c : Nat) (own other : List V) (left : V) (h1 : c < own.length) (h2 : c < other.length) :
    cells (halfSwapped c own other left) =
      fun j => if j = c then some left else if 0 ≤ j ∧ j < c then cells other j else cells own j := by
  funext j
  have hlen : (other.take c).length = c := by rw [List.length_take]; omega
  simp only [cells, halfSwapped]
  by_cases hj : j = c
  · subst hj
    rw [if_pos rfl, List.getElem?_append_right (by omega), hlen]
    simp
  · rw [if_neg hj]
    by_cases h3 : j < c
    · rw [if_pos (by omega), List.getElem?_append_left (by omega), List.getElem?_take, if_pos h3]
    · rw [if_neg (by omega), List.getElem?_append_right (by omega), hlen,
        show j - c = (j - c - 1) + 1 by omega, List.getElem?_cons_succ, List.getElem?_drop]
      congr 1; omega

theorem length_halfSwapped (c : Nat) (own other : List V) (left : V) (h1 : c < own.length) (h2 : c < other.length) :
    (halfSwapped c own other left).length = own.length := by
  simp [halfSwapped]; omega

/-- **C92.** If the exchange of the elements with the index `c` is the first one that
throws, both static vectors keep their sizes, the elements before `c` have changed places,
those behind `c` are where they were, and the two elements at `c` are what the throwing
call left in them. The shorter vector's element is the first argument of that call. -/
theorem C92_static_swap_throws (N : Nat) (sw : Swaps V) (h : Heap V) (o t : Stat V) (xs ys : List V)
    (v : sinv N h o xs) (w : sinv N h t ys) (c : Nat) (x' y' : V) (hc : sw c = some (x', y'))
    (hs : ∀ i < c, sw i = none) (h1 : c < xs.length) (h2 : c < ys.length) :
    ∃ o' t', Stat.swapX N sw o t = .exn (o', t') ∧
      sinv N h o' (halfSwapped c xs ys (if ys.length ≤ xs.length then y' else x')) ∧
      sinv N h t' (halfSwapped c ys xs (if ys.length ≤ xs.length then x' else y')) := by
  obtain ⟨v1, v2, v3⟩ := v
  obtain ⟨w1, w2, w3⟩ := w
  have key : ∀ (l s : List V), l.length ≤ N → s.length ≤ l.length → c < s.length →
      swapRangesX N sw 0 s.length (cells s) (cells l) =
        .exn (cells (halfSwapped c s l x'), cells (halfSwapped c l s y')) := by
    intro l s hl hsl hcs
    rw [swapRangesX_throws N sw x' y' c hc s.length 0 _ _ (by omega) (by omega) (by omega) (fun i _ hi => hs i hi)
      (fun j _ hj => ⟨cells_live (by omega), cells_live (by omega)⟩),
      cells_halfSwapped c s l x' hcs (by omega), cells_halfSwapped c l s y' (by omega) hcs]
  simp only [Stat.swapX, v1, v2, w1, w2]
  by_cases hle : ys.length ≤ xs.length
  · simp only [if_pos hle]
    rw [key xs ys v3 hle h2]
    exact ⟨_, _, rfl, ⟨rfl, (length_halfSwapped c xs ys y' h1 h2).symm, by rw [length_halfSwapped c xs ys y' h1 h2]; exact v3⟩,
      ⟨rfl, (length_halfSwapped c ys xs x' h2 h1).symm, by rw [length_halfSwapped c ys xs x' h2 h1]; exact w3⟩⟩
  · simp only [if_neg hle]
    rw [key ys xs w3 (by omega) h1]
    exact ⟨_, _, rfl, ⟨rfl, (length_halfSwapped c xs ys x' h1 h2).symm, by rw [length_halfSwapped c xs ys x' h1 h2]; exact v3⟩,
      ⟨rfl, (length_halfSwapped c ys xs y' h2 h1).symm, by rw [length_halfSwapped c ys xs y' h2 h1]; exact w3⟩⟩

/-- **C92 is violated** by `inplace_vector`: its `swap` is declared `noexcept` for all
elements, so an exchange of elements that throws always terminates the program. -/
theorem C92_inplace_swap_terminates (N : Nat) (sw : Swaps V) (h : Heap V) (o t : Stat V) (xs ys : List V)
    (v : sinv N h o xs) (w : sinv N h t ys) (c : Nat) (x' y' : V) (hc : sw c = some (x', y'))
    (hs : ∀ i < c, sw i = none) (h1 : c < xs.length) (h2 : c < ys.length) :
    inplaceSwap N sw o t = .terminated := by
  obtain ⟨o', t', e, -⟩ := C92_static_swap_throws N sw h o t xs ys v w c x' y' hc hs h1 h2
  simp [inplaceSwap, e, asNoexcept]

/-- A static vector with the given elements. -/
def statOf (xs : List V) : Stat V := ⟨cells xs, xs.length⟩

theorem C92_inplace_swap_violated :
    inplaceSwap 4 (fun j => if j = 1 then some (20, 50) else none) (statOf [1, 2, 3]) (statOf [4, 5]) = .terminated :=
  C92_inplace_swap_terminates 4 _ (⟨fun _ => none, 0⟩ : Heap Nat) _ _ [1, 2, 3] [4, 5] ⟨rfl, rfl, by decide⟩ ⟨rfl, rfl, by decide⟩ 1 20 50 rfl
    (by intro i hi; obtain rfl : i = 0 := by omega
        rfl) (by decide) (by decide)

example : halfSwapped 1 [1, 2, 3] [4, 5] 50 = [4, 50, 3] := rfl

end Verif.Containers
