import Verif.Containers.Returned
import Verif.Lists.Returned

/-!
# The containers in the style of the standard library (properties C63 and C64)

`std_containers::vector`, `inplace_vector` and `list` forward to the containers of the library. Modelled here: reverse iteration, the members of
`list` that rearrange it, and the members of `inplace_vector` that report a full container.
-/

namespace Verif.Containers

open Verif Lawful

variable {V O : Type} {I : Impl V O} {mn : Nat} {mkA : Bool} {L : Lawful I mn mkA}

/-! ## Reverse iteration -/

/-- A `std::reverse_iterator` over an iterator is that iterator: `*it` is the element before the base, `++it` moves the base back by one. For a
pointer into an array the element before slot 0 and the position before it do not exist. The loop `for (it = rbegin(); it != rend(); ++it)` with
`*it` in every iteration; `n` bounds the number of iterations, a loop that is longer than that counts as undefined. -/
def revLoop (cap : Nat) (m : Cells V) (rend : Nat) : Nat → Nat → Option (List V)
  | 0, _ => none
  | n + 1, base =>
    if base = rend then some []
    else
      match base with
      | 0 => none
      | b + 1 =>
        match readCell cap m b with
        | none => none
        | some v => (revLoop cap m rend n b).map (v :: ·)

/-- source/containers/std/vector.cpp 199-217, source/containers/std/inplace_vector.cpp 150-161: `rbegin()` is a reverse iterator with base `begin()`,
`rend()` one with base `end()`. -/
def Impl.reverseWalk (I : Impl V O) (h : Heap V) (o : O) : Option (List V) :=
  revLoop (I.mem h o).1 (I.mem h o).2 (I.size o) (I.size o + 1) 0

/-- With `rbegin()` made from `end()` and `rend()` from `begin()`, for comparison. -/
def Impl.reverseWalkRight (I : Impl V O) (h : Heap V) (o : O) : Option (List V) :=
  revLoop (I.mem h o).1 (I.mem h o).2 0 (I.size o + 1) (I.size o)

/-- The loop itself is right: from `end()` to `begin()` it visits the elements in reverse. -/
theorem revLoop_right (cap : Nat) (xs : List V) : ∀ k, k ≤ xs.length → xs.length ≤ cap →
    revLoop cap (fun j => xs[j]?) 0 (k + 1) k = some (xs.take k).reverse := by
  intro k
  induction k with
  | zero => intro _ _; simp [revLoop]
  | succ k ih =>
    intro hk hc
    have hlt : k < xs.length := hk
    rw [revLoop, if_neg (by omega)]
    simp only [readCell, if_pos (show k < cap by omega), List.getElem?_eq_getElem hlt, ih (by omega) hc, Option.map_some]
    rw [List.take_succ_eq_append_getElem hlt, List.reverse_append]
    rfl

/-- The reverse iteration that `rbegin()` and `rend()` should give. -/
theorem reverseWalkRight_eq {h : Heap V} {o : O} {xs : List V} {cap : Nat} (r : L.Rep h o xs cap) :
    I.reverseWalkRight h o = some xs.reverse := by
  have := revLoop_right cap xs xs.length (Nat.le_refl _) r.2
  rw [List.take_length] at this
  rw [Impl.reverseWalkRight, r.mem, r.1.2.2]
  exact this

/-- C63, reverse iteration over an empty vector.

Missing: any vector with an element (`C63_vector_reverse_violated`). -/
theorem C63_vector_reverse_partial {h : Heap V} {o : O} {cap : Nat} (r : L.Rep h o [] cap) : I.reverseWalk h o = some [] := by
  rw [Impl.reverseWalk, r.mem, r.1.2.2]
  simp [revLoop]

/-- C63 is violated by reverse iteration over every `vector` and `inplace_vector` that is not empty: `rbegin()` is made from `begin()`, so the first
`*it` reads the element before the first. -/
theorem C63_vector_reverse_violated {h : Heap V} {o : O} {xs : List V} {cap : Nat} (r : L.Rep h o xs cap) (hne : xs ≠ []) :
    I.reverseWalk h o = none ∧ I.reverseWalkRight h o = some xs.reverse := by
  refine ⟨?_, reverseWalkRight_eq r⟩
  have hl : xs.length ≠ 0 := fun e => hne (List.eq_nil_of_length_eq_zero e)
  rw [Impl.reverseWalk, r.mem, r.1.2.2, revLoop, if_neg (by omega)]

/-! ## `inplace_vector` -/

/-- What `try_push_back` returns: a pointer to the new element, or the null pointer. -/
inductive Try (S : Type) where
  | pointer (s : S) (at_ : Addr)
  | null (s : S)
  | exn (s : S)
  | ub

/-- source/containers/std/inplace_vector.cpp 263-278 `try_push_back` and `try_emplace_back`. -/
def tryPush (N : Nat) (h : Heap V) (o : Stat V) (c : PSrc V) : Try (Heap V × Stat V) :=
  if (stat V N).size o < N then
    match (stat V N).pushRet h o c fun _ => false with
    | .ok s a => .pointer s a
    | .exn s => .exn s
    | .ub => .ub
  else .null (h, o)

/-- source/containers/std/inplace_vector.cpp 287-296 `unchecked_push_back` and `unchecked_emplace_back` (push_back_into_capacity.cpp,
emplace_back_into_capacity.cpp: `lazy_push_back_into_capacity`; line 41 of it asserts that there is room). -/
def uncheckedPush (N : Nat) (h : Heap V) (o : Stat V) (c : PSrc V) : Gives (Heap V × Stat V) :=
  if (stat V N).size o < N then Gives.of ((stat V N).pushInto h o c) fun _ => (stat V N).addr o ((stat V N).size o) else .ub

/-- source/containers/std/inplace_vector.cpp 199-203 `reserve`. -/
def inplaceReserve (N : Nat) (h : Heap V) (o : Stat V) (n : Nat) : Out (Heap V × Stat V) :=
  if N < n then .exn (h, o) else .ok (h, o)

/-- C64, `try_push_back` and `try_emplace_back`: in a full container nothing happens, not even the construction of an element, and the result is null;
otherwise the result points to the new element, or the construction of the element threw and the container is as before. -/
theorem C64_try_push_back {N : Nat} {h : Heap V} {o : Stat V} {xs : List V} (r : (Stat.lawful N).Rep h o xs N) (hf : Fresh h) (c : PSrc V) (v : V)
    (t : Bool) (hc : c = .lit v t ∨ ∃ k, c = .self k t ∧ xs[k]? = some v) :
    match tryPush N h o c with
    | .pointer (h', o') a => xs.length < N ∧ t = false ∧ (Stat.lawful N).Rep h' o' (xs ++ [v]) N ∧ (stat V N).deref h' o' a = some v ∧
        a = (stat V N).addr o' xs.length
    | .null s => xs.length = N ∧ s = (h, o)
    | .exn (h', o') => xs.length < N ∧ t = true ∧ (Stat.lawful N).Rep h' o' xs N
    | .ub => False := by
  have hs := r.1.2.2
  have hr2 := r.2
  have hcap : ∀ {h' : Heap V} {o' : Stat V} {ys : List V} {cap' : Nat}, (Stat.lawful N).Rep h' o' ys cap' → cap' = N := by
    intro h' o' ys cap' q
    have := q.view.cap
    simp only [stat] at this
    exact (Option.some.inj this).symm
  unfold tryPush
  rw [hs]
  by_cases hroom : xs.length < N
  · rw [if_pos hroom]
    have hp : pushPre (Stat.lawful (V := V) N).cfg (xs, N) := by
      intro _ h1; simp only at h1; omega
    have key := C62_push_back (L := Stat.lawful N) r hf c v t hc (fun _ => false) hp
    obtain ⟨h2, o2, e2, r2, _⟩ := good_push (L := Stat.lawful N) r hf c v t (fun _ => false) hp hc
    have hfg := (stat V N).pushRet_forget h o c fun _ => false
    rw [e2] at hfg
    have hthr : (specPush (Stat.lawful (V := V) N).cfg (xs, N) v t fun _ => false).2 = t := by
      simp only [specPush, Lawful.cfg]
      rw [if_neg (show ¬ (stat V N).mx = 0 by simp only [stat]; omega), if_pos hroom]
      cases t <;> rfl
    rw [hthr] at hfg
    cases hg : (stat V N).pushRet h o c fun _ => false with
    | ub => rw [hg] at key; exact key
    | exn s =>
      rw [hg] at key hfg
      refine ⟨hroom, ?_, key⟩
      cases t
      · simp [Gives.forget, Out.of] at hfg
      · rfl
    | ok s a =>
      rw [hg] at key hfg
      obtain ⟨h', o'⟩ := s
      obtain ⟨ka, ⟨cap', kr⟩, kd⟩ := key
      refine ⟨hroom, ?_, hcap kr ▸ kr, kd, ka⟩
      cases t
      · rfl
      · simp [Gives.forget, Out.of] at hfg
  · rw [if_neg hroom]
    exact ⟨by omega, rfl⟩

/-- C64, `unchecked_push_back`: with room it does what `push_back` does and returns the same reference. -/
theorem C64_unchecked_push_back {N : Nat} {h : Heap V} {o : Stat V} {xs : List V} (r : (Stat.lawful N).Rep h o xs N) (c : PSrc V)
    (hroom : xs.length < N) (al : Nat → Bool) : uncheckedPush N h o c = (stat V N).pushRet h o c al := by
  have hs := r.1.2.2
  simp only [uncheckedPush, Impl.pushRet, r.view.cap, hs, if_pos hroom]
  rw [if_neg (show ¬ (stat V N).mx = 0 by simp only [stat]; omega)]

/-- C64, `reserve`: throws exactly if the container could not hold that many elements, and never changes anything. -/
theorem C64_reserve (N : Nat) (h : Heap V) (o : Stat V) (n : Nat) :
    inplaceReserve N h o n = Out.of (decide (N < n)) (h, o) := by
  unfold inplaceReserve
  by_cases hn : N < n
  · simp [hn, Out.of]
  · simp [hn, Out.of]

end Verif.Containers

namespace Verif.Lists

open Verif

variable {V : Type}

namespace LHeap

/-- The loop `for (it = rbegin(); it != rend(); ++it)` with `*it` in every iteration over a list: `*it` is the element of the node before the base,
`++it` moves the base to that node. The sentinel has no element. -/
def revLoop (h : LHeap V) (rend : Nat) : Nat → Nat → Option (List V)
  | 0, _ => none
  | n + 1, base =>
    if base = rend then some []
    else
      match h.prevOf base with
      | none => none
      | some b =>
        match h.deref b with
        | none => none
        | some v => (revLoop h rend n b).map (v :: ·)

/-- source/containers/std/list.cpp 249-267: `rbegin()` is a reverse iterator with base `begin()`, `rend()` one with base `end()`. -/
def reverseWalk (h : LHeap V) (l : Nat) : Option (List V) :=
  match h.nextOf l with
  | none => none
  | some b => h.revLoop l (h.next + 1) b

/-- source/containers/std/list.cpp 408-410 `reverse`, "TODO: Implement". -/
def reverse (h : LHeap V) (_l : Nat) : LHeap V := h

/-- source/containers/std/list.cpp 412-415 `unique`, "TODO: Implement": it returns 0. -/
def unique (h : LHeap V) (_l : Nat) (_eq : V → V → Bool) : LHeap V × Nat := (h, 0)

/-- source/containers/std/list.cpp 420-425 `sort`, "TODO: Implement". -/
def sort (h : LHeap V) (_l : Nat) (_less : V → V → Bool) : LHeap V := h

/-- source/containers/std/list.cpp 369-371 `merge`, "TODO: Implement". -/
def merge (h : LHeap V) (_l _other : Nat) (_less : V → V → Bool) : LHeap V := h

end LHeap

/-- C63, reverse iteration over an empty list.

Missing: any list with an element (`C63_list_reverse_violated`). -/
theorem C63_list_reverse_partial {h : LHeap V} {A : Abs V} {l : Nat} (r : Rel h A) (hl : A.lists l = some []) : h.reverseWalk l = some [] := by
  have := ring_first (r.ring hl)
  simp only [headId, ids, List.map_nil, List.headD_nil] at this
  simp only [LHeap.reverseWalk, this, LHeap.revLoop, if_true]

/-- C63 is violated by reverse iteration over every list that is not empty: the first `*it` reads the sentinel. -/
theorem C63_list_reverse_violated {h : LHeap V} {A : Abs V} {l : Nat} {xs : List (Nat × V)} (r : Rel h A) (hl : A.lists l = some xs)
    (hne : xs ≠ []) : h.reverseWalk l = none ∧ h.backward l = some (xs.map (·.2)).reverse := by
  refine ⟨?_, backward_spec r hl⟩
  have hfirst := ring_first (r.ring hl)
  have hring := r.ring hl
  cases xs with
  | nil => exact absurd rfl hne
  | cons x xs =>
    have hx : x.1 ≠ l := fun e => r.notMem hl (by simp [ids, e])
    have hlink : Linked h l x.1 := by
      simp only [Inner, ids, List.map_cons, List.cons_append] at hring
      exact (List.isChain_cons_cons.1 hring).1
    simp only [headId, ids, List.map_cons, List.headD_cons] at hfirst
    simp only [LHeap.reverseWalk, hfirst, LHeap.revLoop, if_neg hx, hlink.2, LHeap.deref, r.sent hl]
    rfl

/-- C63 is violated by the members of `list` that are not implemented: they leave every list as it is. So `reverse()` is right only for
palindromes, `sort` only for lists that are sorted, `merge` into a list only if the other one is empty, `unique` only without repetitions. -/
theorem C63_list_algorithms_violated {h : LHeap V} {A : Abs V} {l o : Nat} {xs : List (Nat × V)} (r : Rel h A) (hl : A.lists l = some xs)
    (less eq : V → V → Bool) :
    (h.reverse l).forward l = some (xs.map (·.2)) ∧ ((h.unique l eq).1).forward l = some (xs.map (·.2)) ∧ (h.unique l eq).2 = 0 ∧
      (h.sort l less).forward l = some (xs.map (·.2)) ∧ (h.merge l o less).forward l = some (xs.map (·.2)) ∧
      ((xs.map (·.2)).reverse ≠ xs.map (·.2) → (h.reverse l).forward l ≠ some (xs.map (·.2)).reverse) ∧
      ((xs.map (·.2)).mergeSort less ≠ xs.map (·.2) → (h.sort l less).forward l ≠ some ((xs.map (·.2)).mergeSort less)) := by
  have e := forward_spec r hl
  refine ⟨e, e, rfl, e, e, ?_, ?_⟩
  · intro h1 h2
    exact h1 (Option.some.inj (h2.symm.trans e))
  · intro h1 h2
    exact h1 (Option.some.inj (h2.symm.trans e))

end Verif.Lists

namespace Verif.Containers

open Verif Lawful

/-! ### Examples -/

/-- A `vector` with 1, 2, 3, the list `{1, 2}`, and an `inplace_vector<Nat, 4>` that becomes full. -/
example : (vec Nat 0 9).reverseWalk (aliasHeap 4).1 (aliasHeap 4).2 = none ∧
    (vec Nat 0 9).reverseWalkRight (aliasHeap 4).1 (aliasHeap 4).2 = some [3, 2, 1] ∧
    Lists.ret12.reverseWalk 0 = none ∧ Lists.ret12.backward 0 = some [2, 1] ∧
    (match tryPush 4 ⟨fun _ => none, 0⟩ alias123 (.lit 9 false) with
      | .pointer s a => some ((stat Nat 4).deref s.1 s.2 a, (stat Nat 4).size s.2)
      | _ => none) = some (some 9, 4) ∧
    (match tryPush 3 ⟨fun _ => none, 0⟩ alias123 (.lit 9 false) with
      | .null s => some ((stat Nat 3).size s.2)
      | _ => none) = some 3 := by
  refine ⟨?_, ?_, ?_, ?_, ?_, ?_⟩ <;> decide +kernel

end Verif.Containers
