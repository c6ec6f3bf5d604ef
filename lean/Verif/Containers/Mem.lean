import Verif.Base.Hist

/-!
# Element storage and the uninitialized algorithms (property C51)

A block of storage is a number of slots; every slot is raw (`none`) or holds a live element
(`some v`). Constructing over a live element (its destructor would never run), destroying
or reading a raw slot, and touching a slot outside the block are errors (`none` / `ub`).
-/

namespace Verif.Containers

open Verif

variable {V : Type}

/-- The slots of a block. -/
abbrev Cells (V : Type) := Nat → Option V

/-- source/bounded/construct_at.cpp 21-26: placement new into slot `k` of a block of `cap`
slots. -/
def construct (cap : Nat) (m : Cells V) (k : Nat) (v : V) : Option (Cells V) :=
  if k < cap ∧ (m k).isNone then some (upd m k (some v)) else none

/-- source/bounded/destroy.cpp 14-16. -/
def destroy (cap : Nat) (m : Cells V) (k : Nat) : Option (Cells V) :=
  if k < cap ∧ (m k).isSome then some (upd m k none) else none

/-- Access to a live element. -/
def readCell (cap : Nat) (m : Cells V) (k : Nat) : Option V :=
  if k < cap then m k else none

/-- source/bounded/relocate.cpp 16-23 in `construct_at(*output, [&] { return relocate(*it); })`
(source/bounded/relocate.cpp 36-38, source/containers/algorithms/uninitialized.cpp 108).
The named result of `relocate` may be constructed directly in the destination (copy elision,
which the compilers the library supports perform), so the destination is constructed first
and the source is destroyed afterwards: relocating an element onto itself is an error. -/
def relocateAt (cap : Nat) (m : Cells V) (dst src : Nat) : Option (Cells V) :=
  match readCell cap m src with
  | none => none
  | some v => (construct cap m dst v).bind fun m' => destroy cap m' src

/-- source/containers/algorithms/destroy_range.cpp 19-23 on the slots `[k, k + n)`. -/
def destroyRange (cap : Nat) (m : Cells V) (k : Nat) : Nat → Option (Cells V)
  | 0 => some m
  | n + 1 => (destroy cap m k).bind fun m' => destroyRange cap m' (k + 1) n

/-- source/containers/algorithms/uninitialized.cpp 105-112 `uninitialized_relocate` of the
slots `[src, src + n)` to `[dst, dst + n)` of the same block. -/
def relocFwd (cap : Nat) (m : Cells V) (src dst : Nat) : Nat → Option (Cells V)
  | 0 => some m
  | n + 1 => (relocateAt cap m dst src).bind fun m' => relocFwd cap m' (src + 1) (dst + 1) n

/-- source/containers/algorithms/uninitialized.cpp 105-112 on reversed ranges (as called from
source/containers/insert.cpp 46-49), and lines 114-123 `uninitialized_relocate_backward`:
the slots `[last - n, last)` to `[dlast - n, dlast)`, last one first. -/
def relocBack (cap : Nat) (m : Cells V) (last dlast : Nat) : Nat → Option (Cells V)
  | 0 => some m
  | n + 1 => (relocateAt cap m (dlast - 1) (last - 1)).bind fun m' =>
      relocBack cap m' (last - 1) (dlast - 1) n

/-- source/containers/algorithms/uninitialized.cpp 125-133 `uninitialized_relocate_no_overlap`
from slots `[src, src + n)` of one block to slots `[dst, dst + n)` of another. The `memcpy`
branch (trivially copyable elements) has the same effect and is not modelled separately. -/
def relocTo (ca cb : Nat) (a b : Cells V) (src dst : Nat) : Nat → Option (Cells V × Cells V)
  | 0 => some (a, b)
  | n + 1 =>
    match readCell ca a src with
    | none => none
    | some v =>
      (construct cb b dst v).bind fun b' => (destroy ca a src).bind fun a' =>
        relocTo ca cb a' b' (src + 1) (dst + 1) n

/-- One element of a source range: the value it yields, and whether obtaining or copying it
throws. -/
structure Item (V : Type) where
  val : V
  throws : Bool
  deriving Repr, DecidableEq

/-- source/containers/algorithms/copy_or_relocate_from.cpp 27-51 with
source/containers/algorithms/uninitialized.cpp 40-52 `construct_at_output`: the loop of
`uninitialized_copy`. The result is the block and the output position. -/
def copyLoop (cap : Nat) (m : Cells V) (out : Nat) : List (Item V) → Out (Cells V × Nat)
  | [] => .ok (m, out)
  | it :: its =>
    if it.throws then .exn (m, out)
    else
      match construct cap m out it.val with
      | none => .ub
      | some m' => copyLoop cap m' (out + 1) its

/-- source/containers/algorithms/uninitialized.cpp 54-63 `uninitialized_copy`. The `memcpy`
branch of lines 77-93 (trivially copyable elements, which do not throw) has the same effect
and is not modelled separately. -/
def uninitCopy (cap : Nat) (m : Cells V) (out : Nat) (src : List (Item V)) : Out (Cells V) :=
  match copyLoop cap m out src with
  | .ok (m', _) => .ok m'
  | .exn (m', out') =>
    match destroyRange cap m' out (out' - out) with
    | some m'' => .exn m''
    | none => .ub
  | .ub => .ub

/-! ## What the algorithms do, slot by slot -/

/-- Slots after moving `n` elements from `src` to `dst`. -/
def shifted (m : Cells V) (src dst n : Nat) : Cells V := fun k =>
  if dst ≤ k ∧ k < dst + n then m (k - dst + src)
  else if src ≤ k ∧ k < src + n then none
  else m k

/-- Slots after writing `xs` from `at`. -/
def written (m : Cells V) (pos : Nat) (xs : List V) : Cells V := fun k =>
  if pos ≤ k ∧ k < pos + xs.length then xs[k - pos]? else m k

/-- Slots after destroying `n` elements from `at`. -/
def cleared (m : Cells V) (pos n : Nat) : Cells V := fun k =>
  if pos ≤ k ∧ k < pos + n then none else m k

theorem construct_eq {cap : Nat} {m : Cells V} {k : Nat} {v : V} (h : k < cap) (hm : m k = none) :
    construct cap m k v = some (upd m k (some v)) := by
  simp [construct, h, hm]

theorem destroy_eq {cap : Nat} {m : Cells V} {k : Nat} (h : k < cap) (hm : (m k).isSome) :
    destroy cap m k = some (upd m k none) := by
  simp [destroy, h, hm]

theorem destroyRange_eq (cap : Nat) : ∀ (n : Nat) (m : Cells V) (k : Nat), k + n ≤ cap →
    (∀ j, k ≤ j → j < k + n → (m j).isSome) → destroyRange cap m k n = some (cleared m k n) := by
  intro n
  induction n with
  | zero =>
    intro m k _ _
    simp only [destroyRange, Option.some.injEq]
    funext j; simp only [cleared]; split <;> first | omega | rfl
  | succ n ih =>
    intro m k hk hl
    simp only [destroyRange]
    rw [destroy_eq (by omega) (hl k (by omega) (by omega))]
    simp only [Option.bind_some]
    rw [ih _ _ (by omega)]
    · congr 1; funext j; simp only [cleared, upd]
      by_cases h1 : j = k
      · subst h1; simp
      · by_cases h2 : k ≤ j ∧ j < k + (n + 1)
        · rw [if_pos (by omega), if_pos h2]
        · rw [if_neg (by omega), if_neg h2, if_neg h1]
    · intro j h1 h2; rw [upd_other _ _ (by omega)]; exact hl j (by omega) (by omega)

theorem relocFwd_eq (cap : Nat) : ∀ (n : Nat) (m : Cells V) (src dst : Nat), dst < src →
    src + n ≤ cap → (∀ j, src ≤ j → j < src + n → (m j).isSome) →
    (∀ j, dst ≤ j → j < src → j < dst + n → m j = none) →
    relocFwd cap m src dst n = some (shifted m src dst n) := by
  intro n
  induction n with
  | zero =>
    intro m src dst _ _ _ _
    simp only [relocFwd, Option.some.injEq]
    funext j; simp only [shifted]
    rw [if_neg (by omega), if_neg (by omega)]
  | succ n ih =>
    intro m src dst hd hc hl hr
    obtain ⟨v, hv⟩ := Option.isSome_iff_exists.1 (hl src (by omega) (by omega))
    simp only [relocFwd, relocateAt, readCell]
    rw [if_pos (by omega), hv]
    simp only
    rw [construct_eq (by omega) (hr dst (by omega) hd (by omega))]
    simp only [Option.bind_some]
    rw [destroy_eq (by omega) (by rw [upd_other _ _ (by omega), hv]; rfl)]
    simp only [Option.bind_some]
    rw [ih _ _ _ (by omega) (by omega)]
    · congr 1; funext j; simp only [shifted, upd]
      by_cases h1 : j = dst
      · subst h1
        rw [if_neg (by omega), if_neg (by omega), if_neg (by omega), if_pos rfl, if_pos (by omega)]
        rw [Nat.sub_self, Nat.zero_add, hv]
      · by_cases h2 : dst ≤ j ∧ j < dst + (n + 1)
        · rw [if_pos (by omega), if_pos h2, if_neg (by omega), if_neg (by omega)]
          congr 1; omega
        · rw [if_neg (by omega), if_neg h2]
          by_cases h3 : src ≤ j ∧ j < src + (n + 1)
          · rw [if_pos h3]
            by_cases h4 : j = src
            · subst h4; rw [if_neg (by omega), if_pos rfl]
            · rw [if_pos (by omega)]
          · rw [if_neg (by omega), if_neg h3, if_neg (by omega), if_neg h1]
    · intro j h1 h2
      rw [upd_other _ _ (by omega), upd_other _ _ (by omega)]; exact hl j (by omega) (by omega)
    · intro j h1 h2 h3
      by_cases h4 : j = src
      · subst h4; rw [upd_same]
      · rw [upd_other _ _ h4, upd_other _ _ (by omega)]; exact hr j (by omega) (by omega) (by omega)

theorem relocBack_eq (cap : Nat) : ∀ (n : Nat) (m : Cells V) (src dst : Nat), src < dst →
    dst + n ≤ cap → (∀ j, src ≤ j → j < src + n → (m j).isSome) →
    (∀ j, src + n ≤ j → dst ≤ j → j < dst + n → m j = none) →
    relocBack cap m (src + n) (dst + n) n = some (shifted m src dst n) := by
  intro n
  induction n with
  | zero =>
    intro m src dst _ _ _ _
    simp only [relocBack, Option.some.injEq]
    funext j; simp only [shifted]
    rw [if_neg (by omega), if_neg (by omega)]
  | succ n ih =>
    intro m src dst hd hc hl hr
    obtain ⟨v, hv⟩ := Option.isSome_iff_exists.1 (hl (src + n) (by omega) (by omega))
    simp only [relocBack, relocateAt, readCell]
    rw [show src + (n + 1) - 1 = src + n by omega, show dst + (n + 1) - 1 = dst + n by omega]
    rw [if_pos (by omega), hv]
    simp only
    rw [construct_eq (by omega) (hr (dst + n) (by omega) (by omega) (by omega))]
    simp only [Option.bind_some]
    rw [destroy_eq (by omega) (by rw [upd_other _ _ (by omega), hv]; rfl)]
    simp only [Option.bind_some]
    rw [ih _ _ _ (by omega) (by omega)]
    · congr 1; funext j; simp only [shifted, upd]
      by_cases h1 : j = dst + n
      · subst h1
        rw [if_neg (by omega), if_neg (by omega), if_neg (by omega), if_pos rfl, if_pos (by omega)]
        rw [← hv]; congr 1; omega
      · by_cases h2 : dst ≤ j ∧ j < dst + (n + 1)
        · rw [if_pos (by omega), if_pos h2, if_neg (by omega), if_neg (by omega)]
        · rw [if_neg (by omega), if_neg h2]
          by_cases h3 : src ≤ j ∧ j < src + (n + 1)
          · rw [if_pos h3]
            by_cases h4 : j = src + n
            · subst h4; rw [if_neg (by omega), if_pos rfl]
            · rw [if_pos (by omega)]
          · rw [if_neg (by omega), if_neg h3, if_neg (by omega), if_neg h1]
    · intro j h1 h2
      rw [upd_other _ _ (by omega), upd_other _ _ (by omega)]; exact hl j (by omega) (by omega)
    · intro j h1 h2 h3
      by_cases h4 : j = src + n
      · subst h4; rw [upd_same]
      · rw [upd_other _ _ h4, upd_other _ _ (by omega)]; exact hr j (by omega) (by omega) (by omega)

theorem relocTo_eq (ca cb : Nat) : ∀ (xs : List V) (a b : Cells V) (src dst : Nat),
    src + xs.length ≤ ca → dst + xs.length ≤ cb →
    (∀ j (h : j < xs.length), a (src + j) = some xs[j]) →
    (∀ j, dst ≤ j → j < dst + xs.length → b j = none) →
    relocTo ca cb a b src dst xs.length = some (cleared a src xs.length, written b dst xs) := by
  intro xs
  induction xs with
  | nil =>
    intro a b src dst _ _ _ _
    simp only [List.length_nil, relocTo, Option.some.injEq, Prod.mk.injEq]
    constructor <;> funext j <;> simp only [cleared, written, List.length_nil] <;> rw [if_neg (by omega)]
  | cons x xs ih =>
    intro a b src dst h1 h2 h3 h4
    simp only [List.length_cons] at h1 h2 h4 ⊢
    have hx : a src = some x := by have := h3 0 (by simp); simpa using this
    simp only [relocTo, readCell]
    rw [if_pos (by omega), hx]
    simp only
    rw [construct_eq (by omega) (h4 dst (by omega) (by omega))]
    simp only [Option.bind_some]
    rw [destroy_eq (by omega) (by rw [hx]; rfl)]
    simp only [Option.bind_some]
    rw [ih _ _ _ _ (by omega) (by omega)]
    · simp only [Option.some.injEq, Prod.mk.injEq]
      constructor
      · funext j; simp only [cleared, upd]
        by_cases h5 : j = src
        · subst h5; rw [if_neg (by omega), if_pos rfl, if_pos (by omega)]
        · by_cases h6 : src ≤ j ∧ j < src + (xs.length + 1)
          · rw [if_pos (by omega), if_pos h6]
          · rw [if_neg (by omega), if_neg h5, if_neg h6]
      · funext j; simp only [written, upd, List.length_cons]
        by_cases h5 : j = dst
        · subst h5; rw [if_neg (by omega), if_pos rfl, if_pos (by omega)]; simp
        · by_cases h6 : dst ≤ j ∧ j < dst + (xs.length + 1)
          · rw [if_pos (by omega), if_pos h6]
            rw [show j - dst = (j - (dst + 1)) + 1 by omega, List.getElem?_cons_succ]
          · rw [if_neg (by omega), if_neg h5, if_neg h6]
    · intro j hj
      rw [upd_other _ _ (by omega)]
      have := h3 (j + 1) (by simpa using hj)
      rw [show src + 1 + j = src + (j + 1) by omega, this]; simp
    · intro j h5 h6
      rw [upd_other _ _ (by omega)]; exact h4 j (by omega) (by omega)

/-- Does copying the whole range succeed? -/
def noThrow (src : List (Item V)) : Bool := !src.any (·.throws)

/-- The values of a source range. -/
def vals (src : List (Item V)) : List V := src.map (·.val)

@[simp] theorem vals_length (src : List (Item V)) : (vals src).length = src.length := by simp [vals]

theorem copyLoop_ok (cap : Nat) : ∀ (src : List (Item V)) (m : Cells V) (out : Nat),
    noThrow src = true → out + src.length ≤ cap → (∀ j, out ≤ j → j < out + src.length → m j = none) →
    copyLoop cap m out src = .ok (written m out (vals src), out + src.length) := by
  intro src
  induction src with
  | nil =>
    intro m out _ _ _
    simp only [copyLoop, List.length_nil, Nat.add_zero, Out.ok.injEq, Prod.mk.injEq, and_true]
    funext j; simp only [written, vals_length, List.length_nil]; rw [if_neg (by omega)]
  | cons it src ih =>
    intro m out hn hc hr
    simp only [noThrow, List.any_cons, Bool.not_or, Bool.and_eq_true, Bool.not_eq_true'] at hn
    simp only [List.length_cons] at hc hr ⊢
    simp only [copyLoop, hn.1]
    rw [construct_eq (by omega) (hr out (by omega) (by omega))]
    simp only [Bool.false_eq_true, if_false]
    rw [ih _ _ (by simp [noThrow, hn.2]) (by omega)]
    · simp only [Out.ok.injEq, Prod.mk.injEq]
      refine ⟨?_, by omega⟩
      funext j; simp only [written, upd, vals_length, List.length_cons]
      by_cases h5 : j = out
      · subst h5; rw [if_neg (by omega), if_pos rfl, if_pos (by omega)]; simp [vals]
      · by_cases h6 : out ≤ j ∧ j < out + (src.length + 1)
        · rw [if_pos (by omega), if_pos h6]
          rw [show j - out = (j - (out + 1)) + 1 by omega, vals, vals, List.map_cons, List.getElem?_cons_succ]
        · rw [if_neg (by omega), if_neg h5, if_neg h6]
    · intro j h1 h2; rw [upd_other _ _ (by omega)]; exact hr j (by omega) (by omega)

/-- Only the elements before the first one that throws need room. -/
theorem copyLoop_exn' (cap : Nat) : ∀ (src : List (Item V)) (m : Cells V) (out : Nat),
    noThrow src = false → out + src.findIdx (·.throws) ≤ cap →
    (∀ j, out ≤ j → j < out + src.findIdx (·.throws) → m j = none) →
    ∃ m' n, copyLoop cap m out src = .exn (m', out + n) ∧ n ≤ src.findIdx (·.throws) ∧
      (∀ j, out ≤ j → j < out + n → (m' j).isSome) ∧ cleared m' out n = m := by
  intro src
  induction src with
  | nil => intro m out h; simp [noThrow] at h
  | cons it src ih =>
    intro m out hn hc hr
    rcases Bool.eq_false_or_eq_true it.throws with ht | ht
    · refine ⟨m, 0, ?_, by omega, ?_, ?_⟩
      · simp [copyLoop, ht]
      · intro j h1 h2; omega
      · funext j; simp only [cleared]; rw [if_neg (by omega)]
    · have hn' : noThrow src = false := by
        simp only [noThrow, List.any_cons, ht, Bool.false_or] at hn; exact hn
      have hfi : (it :: src).findIdx (·.throws) = src.findIdx (·.throws) + 1 := by
        simp [List.findIdx_cons, ht]
      rw [hfi] at hc hr ⊢
      obtain ⟨m', n, e, hl, hs, hcl⟩ := ih (upd m out (some it.val)) (out + 1) hn' (by omega)
        (by intro j h1 h2; rw [upd_other _ _ (by omega)]; exact hr j (by omega) (by omega))
      have hout : m' out = some it.val := by
        have := congrFun hcl out
        simp only [cleared, upd_same] at this
        rwa [if_neg (by omega)] at this
      refine ⟨m', n + 1, ?_, by omega, ?_, ?_⟩
      · simp only [copyLoop, ht]
        rw [construct_eq (by omega) (hr out (by omega) (by omega))]
        simp only [Bool.false_eq_true, if_false, e, Out.exn.injEq, Prod.mk.injEq, true_and]
        omega
      · intro j h1 h2
        by_cases h3 : j = out
        · subst h3; rw [hout]; rfl
        · exact hs j (by omega) (by omega)
      · funext j
        have := congrFun hcl j
        simp only [cleared, upd] at this ⊢
        by_cases h3 : j = out
        · subst h3; rw [if_pos (by omega)]; exact (hr j (by omega) (by omega)).symm
        · rw [if_neg h3] at this
          by_cases h4 : out ≤ j ∧ j < out + (n + 1)
          · rw [if_pos h4]; rw [if_pos (by omega)] at this; exact this
          · rw [if_neg h4]; rw [if_neg (by omega)] at this; exact this

theorem uninitCopy_ok {cap : Nat} {src : List (Item V)} {m : Cells V} {out : Nat}
    (hn : noThrow src = true) (hc : out + src.length ≤ cap)
    (hr : ∀ j, out ≤ j → j < out + src.length → m j = none) :
    uninitCopy cap m out src = .ok (written m out (vals src)) := by
  simp only [uninitCopy, copyLoop_ok cap src m out hn hc hr]

theorem uninitCopy_exn' {cap : Nat} {src : List (Item V)} {m : Cells V} {out : Nat}
    (hn : noThrow src = false) (hc : out + src.findIdx (·.throws) ≤ cap)
    (hr : ∀ j, out ≤ j → j < out + src.findIdx (·.throws) → m j = none) :
    uninitCopy cap m out src = .exn m := by
  obtain ⟨m', n, e, hl, hs, hcl⟩ := copyLoop_exn' cap src m out hn hc hr
  simp only [uninitCopy, e]
  rw [show out + n - out = n by omega, destroyRange_eq cap n m' out (by omega) hs, hcl]

theorem uninitCopy_exn {cap : Nat} {src : List (Item V)} {m : Cells V} {out : Nat}
    (hn : noThrow src = false) (hc : out + src.length ≤ cap)
    (hr : ∀ j, out ≤ j → j < out + src.length → m j = none) :
    uninitCopy cap m out src = .exn m := by
  have hle : src.findIdx (·.throws) ≤ src.length := List.findIdx_le_length
  exact uninitCopy_exn' hn (by omega) (fun j h1 h2 => hr j h1 (by omega))

/-! ## C51 -/

/-- **C51**: `uninitialized_copy` into raw storage that has room for the range, for every
range length and every exception point. If no element throws, exactly the destination slots
become live, holding the values in order. If some element throws, the call throws and every
slot of the block is as it was: everything it constructed was destroyed, exactly once
(destroying a raw slot would be `ub`). -/
theorem C51_uninitialized_copy (cap : Nat) (src : List (Item V)) (m : Cells V) (out : Nat)
    (hroom : out + src.length ≤ cap) (hraw : ∀ j, out ≤ j → j < out + src.length → m j = none) :
    ((∀ it ∈ src, it.throws = false) →
      ∃ m', uninitCopy cap m out src = .ok m' ∧
        (∀ j (h : j < src.length), m' (out + j) = some src[j].val) ∧
        (∀ k, k < out ∨ out + src.length ≤ k → m' k = m k)) ∧
    ((∃ it ∈ src, it.throws = true) → uninitCopy cap m out src = .exn m) := by
  constructor
  · intro h
    have hn : noThrow src = true := by
      simp only [noThrow, Bool.not_eq_true', List.any_eq_false]
      intro x hx; simp [h x hx]
    refine ⟨_, uninitCopy_ok hn hroom hraw, ?_, ?_⟩
    · intro j hj
      simp only [written, vals_length]
      rw [if_pos (by omega), Nat.add_sub_cancel_left]
      simp [vals, hj]
    · intro k hk
      simp only [written, vals_length]
      rw [if_neg (by omega)]
  · rintro ⟨it, h1, h2⟩
    refine uninitCopy_exn ?_ hroom hraw
    simp only [noThrow, Bool.not_eq_false', List.any_eq_true]
    exact ⟨it, h1, h2⟩

example : uninitCopy 3 (fun _ => none) 1 [⟨10, false⟩, ⟨20, false⟩] =
    .ok (written (fun _ => none) 1 [10, 20]) :=
  uninitCopy_ok (by decide) (by decide) (by intros; rfl)

example : uninitCopy 3 (fun _ => none) 0 [⟨10, false⟩, ⟨20, true⟩, ⟨30, false⟩] = .exn (fun _ => none) :=
  (C51_uninitialized_copy 3 [⟨10, false⟩, ⟨20, true⟩, ⟨30, false⟩] (fun _ => none) 0 (by decide)
    (by intros; rfl)).2 ⟨⟨20, true⟩, by simp, rfl⟩

/-- **C51**: relocating a range of live elements to raw slots of another block leaves the
sources raw, the destinations live with the same values in order, and nothing else changed.
Neither side is touched out of bounds, for every length. -/
theorem C51_relocate_no_overlap (ca cb : Nat) (xs : List V) (a b : Cells V) (src dst : Nat)
    (hsrc : src + xs.length ≤ ca) (hdst : dst + xs.length ≤ cb)
    (hlive : ∀ j (h : j < xs.length), a (src + j) = some xs[j])
    (hraw : ∀ j, dst ≤ j → j < dst + xs.length → b j = none) :
    ∃ a' b', relocTo ca cb a b src dst xs.length = some (a', b') ∧
      (∀ j, j < xs.length → a' (src + j) = none) ∧
      (∀ j (h : j < xs.length), b' (dst + j) = some xs[j]) ∧
      (∀ k, k < src ∨ src + xs.length ≤ k → a' k = a k) ∧
      (∀ k, k < dst ∨ dst + xs.length ≤ k → b' k = b k) := by
  refine ⟨_, _, relocTo_eq ca cb xs a b src dst hsrc hdst hlive hraw, ?_, ?_, ?_, ?_⟩
  · intro j hj; simp only [cleared]; rw [if_pos (by omega)]
  · intro j hj; simp only [written]; rw [if_pos (by omega), Nat.add_sub_cancel_left]; simp [hj]
  · intro k hk; simp only [cleared]; rw [if_neg (by omega)]
  · intro k hk; simp only [written]; rw [if_neg (by omega)]

example : relocTo 2 3 (fun k => [7, 8][k]?) (fun _ => none) 0 1 2 =
    some (cleared (fun k => [7, 8][k]?) 0 2, written (fun _ => none) 1 [7, 8]) :=
  relocTo_eq 2 3 [7, 8] _ _ 0 1 (by decide) (by decide)
    (by intro j h; simp at h; rcases (by omega : j = 0 ∨ j = 1) with rfl | rfl <;> rfl) (by intros; rfl)

/-- **C51**: relocation inside one block, towards the front with `uninitialized_relocate` and
towards the back with `uninitialized_relocate_backward`, for overlapping ranges too: the
destinations hold the former sources in order, the sources that are not destinations are raw,
the rest is unchanged. -/
theorem C51_relocate_overlap (cap n : Nat) (m : Cells V) (src dst : Nat)
    (hlive : ∀ j, src ≤ j → j < src + n → (m j).isSome)
    (hraw : ∀ j, dst ≤ j → j < dst + n → ¬(src ≤ j ∧ j < src + n) → m j = none) :
    (dst < src → src + n ≤ cap → ∃ m', relocFwd cap m src dst n = some m' ∧
      (∀ j, j < n → m' (dst + j) = m (src + j)) ∧
      (∀ k, src ≤ k → k < src + n → ¬(dst ≤ k ∧ k < dst + n) → m' k = none) ∧
      (∀ k, ¬(src ≤ k ∧ k < src + n) → ¬(dst ≤ k ∧ k < dst + n) → m' k = m k)) ∧
    (src < dst → dst + n ≤ cap → ∃ m', relocBack cap m (src + n) (dst + n) n = some m' ∧
      (∀ j, j < n → m' (dst + j) = m (src + j)) ∧
      (∀ k, src ≤ k → k < src + n → ¬(dst ≤ k ∧ k < dst + n) → m' k = none) ∧
      (∀ k, ¬(src ≤ k ∧ k < src + n) → ¬(dst ≤ k ∧ k < dst + n) → m' k = m k)) := by
  have key : (∀ j, j < n → shifted m src dst n (dst + j) = m (src + j)) ∧
      (∀ k, src ≤ k → k < src + n → ¬(dst ≤ k ∧ k < dst + n) → shifted m src dst n k = none) ∧
      (∀ k, ¬(src ≤ k ∧ k < src + n) → ¬(dst ≤ k ∧ k < dst + n) → shifted m src dst n k = m k) := by
    refine ⟨?_, ?_, ?_⟩
    · intro j hj; simp only [shifted]; rw [if_pos (by omega)]; congr 1; omega
    · intro k h1 h2 h3; simp only [shifted]; rw [if_neg h3, if_pos ⟨h1, h2⟩]
    · intro k h1 h2; simp only [shifted]; rw [if_neg h2, if_neg h1]
  constructor
  · intro hd hc
    exact ⟨_, relocFwd_eq cap n m src dst hd hc hlive
      (fun j h1 h2 h3 => hraw j h1 h3 (by omega)), key⟩
  · intro hd hc
    exact ⟨_, relocBack_eq cap n m src dst hd hc hlive
      (fun j h1 h2 h3 => hraw j h2 h3 (by omega)), key⟩

/-- Relocating an element onto itself is an error, whatever the block holds. -/
theorem C51_relocate_onto_itself (cap : Nat) (m : Cells V) (k : Nat) : relocateAt cap m k k = none := by
  simp only [relocateAt, readCell]
  split
  · rfl
  · rename_i v hv
    have : construct cap m k v = none := by
      simp only [construct]
      split at hv
      · rw [if_neg]; rintro ⟨_, h⟩; simp [hv] at h
      · simp at hv
    rw [this]; rfl

end Verif.Containers
