import Verif.Base.Hist

/-!
# Memory for the algorithms that relocate elements

A cell is raw (`none`) or holds a live element. Reading a raw cell, constructing over a live
element and destroying a raw cell are undefined behaviour (`none` of the outer `Option`), so a
run that succeeds has destroyed every element it moved from exactly once and has overwritten
none. Moves are assumed not to throw: `relocate_at` is `noexcept`.
-/

namespace Verif.Algo

variable {α β : Type}

/-- What lives at every address. -/
abbrev Mem (α : Type) := Nat → Option α

namespace Mem

/-- `bounded::relocate_at(*dst, *src)` (`bounded/relocate.cpp` 36-38, `noexcept`): constructs `dst`
from `src` and destroys `src`. -/
def relocateAt (m : Mem α) (dst src : Nat) : Option (Mem α) :=
  match m src, m dst with
  | some v, none => some (upd (upd m dst (some v)) src none)
  | _, _ => none

/-- `std::ranges::swap(*i, *j)`. -/
def swapAt (m : Mem α) (i j : Nat) : Option (Mem α) :=
  match m i, m j with
  | some v, some w => some (upd (upd m i (some w)) j (some v))
  | _, _ => none

/-- `uninitialized_relocate_no_overlap` (`algorithms/uninitialized.cpp` 105-112, 126-134), element by
element from the front (the `memcpy` branch has the same effect). -/
def relocateRange (m : Mem α) (src dst : Nat) : Nat → Option (Mem α)
  | 0 => some m
  | n + 1 => do
    let m ← m.relocateAt dst src
    relocateRange m (src + 1) (dst + 1) n

/-- The cells from `b` on hold `xs`. -/
def Seg (m : Mem α) (b : Nat) (xs : List α) : Prop := ∀ i (h : i < xs.length), m (b + i) = some xs[i]

/-- The `n` cells from `b` on are raw. -/
def Raw (m : Mem α) (b n : Nat) : Prop := ∀ i, i < n → m (b + i) = none

/-- The same outside of `S`. -/
def SameOff (m m' : Mem α) (S : Nat → Prop) : Prop := ∀ x, ¬ S x → m' x = m x

theorem SameOff.trans {m m' m'' : Mem α} {S : Nat → Prop} (h1 : SameOff m m' S) (h2 : SameOff m' m'' S) : SameOff m m'' S :=
  fun x hx => (h2 x hx).trans (h1 x hx)

theorem SameOff.mono {m m' : Mem α} {S T : Nat → Prop} (h : SameOff m m' S) (hST : ∀ x, S x → T x) : SameOff m m' T :=
  fun x hx => h x fun hs => hx (hST x hs)

theorem seg_nil (m : Mem α) (b : Nat) : Seg m b [] := fun i h => by simp at h

theorem seg_cons {m : Mem α} {b : Nat} {x : α} {xs : List α} : Seg m b (x :: xs) ↔ m b = some x ∧ Seg m (b + 1) xs := by
  constructor
  · intro h
    refine ⟨h 0 (by simp), fun i hi => ?_⟩
    have := h (i + 1) (by simpa using hi)
    rw [show b + 1 + i = b + (i + 1) by omega, this]
    simp
  · rintro ⟨h0, h1⟩ i hi
    cases i with
    | zero => simpa using h0
    | succ i =>
      have := h1 i (by simpa using hi)
      rw [show b + (i + 1) = b + 1 + i by omega, this]
      simp

theorem seg_append {m : Mem α} : ∀ {xs : List α} {b : Nat} {ys : List α}, Seg m b (xs ++ ys) ↔ Seg m b xs ∧ Seg m (b + xs.length) ys
  | [], b, ys => by simp [seg_nil]
  | x :: xs, b, ys => by
    rw [List.cons_append, seg_cons, seg_cons, seg_append, List.length_cons, show b + (xs.length + 1) = b + 1 + xs.length by omega, and_assoc]

theorem Seg.frame {m m' : Mem α} {b : Nat} {xs : List α} {S : Nat → Prop} (h : Seg m b xs) (hf : SameOff m m' S)
    (hd : ∀ i, i < xs.length → ¬ S (b + i)) : Seg m' b xs := fun i hi => by rw [hf _ (hd i hi)]; exact h i hi

theorem Raw.frame {m m' : Mem α} {b n : Nat} {S : Nat → Prop} (h : Raw m b n) (hf : SameOff m m' S)
    (hd : ∀ i, i < n → ¬ S (b + i)) : Raw m' b n := fun i hi => by rw [hf _ (hd i hi)]; exact h i hi

theorem relocateAt_spec {m : Mem α} {dst src : Nat} {v : α} (hs : m src = some v) (hd : m dst = none) :
    ∃ m', m.relocateAt dst src = some m' ∧ m' dst = some v ∧ m' src = none ∧ SameOff m m' (fun x => x = dst ∨ x = src) := by
  have hne : dst ≠ src := by rintro rfl; rw [hs] at hd; cases hd
  refine ⟨upd (upd m dst (some v)) src none, by simp [relocateAt, hs, hd], ?_, by simp, ?_⟩
  · simp [upd_other _ _ hne]
  · intro x hx
    simp only [not_or] at hx
    rw [upd_other _ _ hx.2, upd_other _ _ hx.1]

/-- Relocating a sequence to raw storage that it does not overlap. -/
theorem relocateRange_spec : ∀ {xs : List α} {m : Mem α} {src dst : Nat}, Seg m src xs → Raw m dst xs.length →
    (src + xs.length ≤ dst ∨ dst + xs.length ≤ src) →
    ∃ m', m.relocateRange src dst xs.length = some m' ∧ Seg m' dst xs ∧ Raw m' src xs.length ∧
      SameOff m m' (fun x => (src ≤ x ∧ x < src + xs.length) ∨ (dst ≤ x ∧ x < dst + xs.length))
  | [], m, src, dst, _, _, _ => ⟨m, rfl, seg_nil _ _, fun i h => by simp at h, fun _ _ => rfl⟩
  | x :: xs, m, src, dst, hs, hr, hd => by
    simp only [List.length_cons] at hd hr
    obtain ⟨h0, h1⟩ := seg_cons.1 hs
    obtain ⟨m1, e1, d1, s1, f1⟩ := relocateAt_spec h0 (dst := dst) (by simpa using hr 0 (by omega))
    obtain ⟨m2, e2, d2, s2, f2⟩ := relocateRange_spec (src := src + 1) (dst := dst + 1) (h1.frame f1 (fun i hi => by omega))
      (Raw.frame (m := m) (fun i hi => by have := hr (i + 1) (by omega); rwa [show dst + 1 + i = dst + (i + 1) by omega]) f1 (fun i hi => by omega))
      (by omega)
    refine ⟨m2, ?_, ?_, ?_, ?_⟩
    · rw [List.length_cons, relocateRange, e1]; exact e2
    · rw [seg_cons]
      refine ⟨?_, d2⟩
      rw [f2 dst (by omega)]; exact d1
    · intro i hi
      cases i with
      | zero => rw [f2 _ (by omega)]; exact s1
      | succ i => rw [show src + (i + 1) = src + 1 + i by omega]; exact s2 i (by simpa using hi)
    · intro z hz
      simp only [List.length_cons] at hz
      rw [f2 z (by omega), f1 z (by omega)]

end Mem

end Verif.Algo
