import Verif.Containers.Alias

/-!
# What the positions and references returned by the contiguous containers refer to (property C62)

`insert`, `emplace` and `erase` return an iterator, `push_back` and `emplace_back` a reference. An iterator of a contiguous container is an
address: the storage (a block of the heap, or the object itself) and the number of the slot. After a reallocation an address into the old
storage refers to nothing.
-/

namespace Verif.Containers

open Verif Lawful

variable {V O : Type} {I : Impl V O} {mn : Nat} {mkA : Bool} {L : Lawful I mn mkA}

/-- An address: the block of the heap, or `none` for storage within the object, and the slot. -/
structure Addr where
  block : Option Nat
  slot : Nat
  deriving Repr, DecidableEq

/-- What an operation that returns an address does. -/
inductive Gives (S : Type) where
  | ok (s : S) (at_ : Addr)
  | exn (s : S)
  | ub

/-- Add the returned address, which may be computed from the state at the end. -/
def Gives.of {S : Type} (r : Out S) (f : S → Addr) : Gives S :=
  match r with
  | .ok s => .ok s (f s)
  | .exn s => .exn s
  | .ub => .ub

/-- Without the address. -/
def Gives.forget {S : Type} : Gives S → Out S
  | .ok s _ => .ok s
  | .exn s => .exn s
  | .ub => .ub

@[simp] theorem Gives.forget_of {S : Type} (r : Out S) (f : S → Addr) : (Gives.of r f).forget = r := by cases r <;> rfl

namespace Impl

/-- `containers::begin(container) + k` (source/containers/begin_end.cpp; contiguous_iterator.cpp). -/
def addr (I : Impl V O) (o : O) (k : Nat) : Addr := ⟨I.ptr o, k⟩

/-- Reading through an address: it has to be in the current storage of the object and the slot has to hold an element. -/
def deref (I : Impl V O) (h : Heap V) (o : O) (a : Addr) : Option V :=
  if a.block = I.ptr o then readCell (I.mem h o).1 (I.mem h o).2 a.slot else none

/-- source/containers/insert.cpp 109-135 with the returned iterator. Without reallocation (line 43 and 58) it is computed before anything is moved,
with reallocation (line 88) from the new storage. -/
def insertRet (I : Impl V O) (h : Heap V) (o : O) (k : Nat) (src : List (Item V)) (al : Nat → Bool) : Gives (Heap V × O) :=
  if I.size o < k then .ub
  else
    match I.capacity o with
    | none => .ub
    | some cap =>
      if I.size o + src.length ≤ cap then Gives.of (I.insertInPlace h o k src) fun _ => I.addr o k
      else if I.reservable then Gives.of (I.insertRealloc h o cap k src al) fun r => I.addr r.2 k
      else .exn (h, o)

/-- source/containers/algorithms/erase.cpp 45-67 with the returned iterator: line 46 if nothing is erased, otherwise line 67. -/
def eraseRet (I : Impl V O) (h : Heap V) (o : O) (first middle : Nat) : Gives (Heap V × O) :=
  if first = middle then .ok (h, o) (I.addr o middle)
  else Gives.of (I.erase h o first middle) fun r => I.addr r.2 first

/-- source/containers/lazy_push_back.cpp 37-77 with the returned reference: `lazy_push_back_into_capacity` returns what `construct_at` returned
(lazy_push_back_into_capacity.cpp 42-44), otherwise it is `back(container)` (line 75; back.cpp: the element before `end()`). -/
def pushRet (I : Impl V O) (h : Heap V) (o : O) (c : PSrc V) (al : Nat → Bool) : Gives (Heap V × O) :=
  if I.mx = 0 then .exn (h, o)
  else
    match I.capacity o with
    | none => .ub
    | some cap =>
      if I.size o < cap then Gives.of (I.pushInto h o c) fun _ => I.addr o (I.size o)
      else Gives.of (I.pushBack h o c al) fun r => I.addr r.2 (I.size r.2 - 1)

theorem insertRet_forget (I : Impl V O) (h : Heap V) (o : O) (k : Nat) (src : List (Item V)) (al : Nat → Bool) :
    (I.insertRet h o k src al).forget = I.insert h o k src al := by
  simp only [insertRet, insert]
  split
  · rfl
  · cases I.capacity o with
    | none => rfl
    | some cap =>
      simp only
      split
      · simp only [Gives.forget_of]
      · split
        · simp only [Gives.forget_of]
        · rfl

theorem eraseRet_forget (I : Impl V O) (h : Heap V) (o : O) (a b : Nat) : (I.eraseRet h o a b).forget = I.erase h o a b := by
  simp only [eraseRet]
  split
  · rename_i he; simp [Gives.forget, erase, he]
  · simp

theorem pushRet_forget (I : Impl V O) (h : Heap V) (o : O) (c : PSrc V) (al : Nat → Bool) :
    (I.pushRet h o c al).forget = I.pushBack h o c al := by
  simp only [pushRet]
  by_cases h0 : I.mx = 0
  · simp [h0, Gives.forget, pushBack]
  · cases hc : I.capacity o with
    | none => simp [h0, hc, Gives.forget, pushBack]
    | some cap =>
      simp only [if_neg h0]
      by_cases hs : I.size o < cap
      · simp [hs, h0, hc, pushBack]
      · simp [hs]

end Impl

/-! ### Operations that stay in the same storage -/

theorem modify_ptr {h h' : Heap V} {o o' : O} {f : Nat → Cells V → Option (Cells V)} (w : L.wf h o) (e : I.modify h o f = some (h', o')) :
    L.wf h' o' ∧ I.ptr o' = I.ptr o ∧ (I.mem h' o').1 = (I.mem h o).1 := by
  simp only [Impl.modify, Option.map_eq_some_iff] at e
  obtain ⟨c, _, ec⟩ := e
  obtain ⟨w1, m1, _, p1, _⟩ := L.put_law c w
  rw [ec] at w1 m1 p1
  exact ⟨w1, p1, by simp only at m1; rw [m1]⟩

theorem copyAt_ptr {h h' : Heap V} {o o' : O} {pos : Nat} {src : List (Item V)} (w : L.wf h o) (e : I.copyAt h o pos src = .ok (h', o')) :
    L.wf h' o' ∧ I.ptr o' = I.ptr o ∧ (I.mem h' o').1 = (I.mem h o).1 := by
  simp only [Impl.copyAt] at e
  split at e
  · rename_i c _
    obtain ⟨w1, m1, _, p1, _⟩ := L.put_law c w
    simp only [Out.ok.injEq] at e
    rw [e] at w1 m1 p1
    exact ⟨w1, p1, by simp only at m1; rw [m1]⟩
  · cases e
  · cases e

theorem finish_ptr {h h' : Heap V} {o o' : O} {n : Nat} (w : L.wf h o) (hn : n ≤ (I.mem h o).1) (e : I.finish (some (h, o)) n = .ok (h', o')) :
    I.ptr o' = I.ptr o := by
  obtain ⟨o1, e1, _, _, _, p1⟩ := L.size_law w hn
  simp only [Impl.finish, e1, Out.ok.injEq, Prod.mk.injEq] at e
  rw [← e.2]; exact p1

theorem insertInPlace_ptr {h h' : Heap V} {o o' : O} {k : Nat} {src : List (Item V)} (w : L.wf h o) (hn : I.size o + src.length ≤ (I.mem h o).1)
    (e : I.insertInPlace h o k src = .ok (h', o')) : I.ptr o' = I.ptr o := by
  simp only [Impl.insertInPlace] at e
  split at e
  · cases e
  · rename_i h1 o1 e1
    obtain ⟨w1, p1, c1⟩ := modify_ptr w e1
    split at e
    · cases e
    · split at e <;> cases e
    · rename_i r e2
      obtain ⟨h2, o2⟩ := r
      obtain ⟨w2, p2, c2⟩ := copyAt_ptr w1 e2
      rw [finish_ptr w2 (by rw [c2, c1]; exact hn) e, p2, p1]

theorem pushInto_ptr {h h' : Heap V} {o o' : O} {c : PSrc V} (w : L.wf h o) (hn : I.size o < (I.mem h o).1)
    (e : I.pushInto h o c = .ok (h', o')) : I.ptr o' = I.ptr o := by
  simp only [Impl.pushInto] at e
  split at e
  · cases e
  · cases e
  · cases hm : I.modify h o (fun cap m => construct cap m (I.size o) ‹V›) with
    | none => rw [hm] at e; simp [Impl.finish] at e
    | some r =>
      obtain ⟨h1, o1⟩ := r
      rw [hm] at e
      obtain ⟨w1, p1, c1⟩ := modify_ptr w hm
      rw [finish_ptr w1 (by rw [c1]; exact hn) e, p1]

/-! ## C62 -/

/-- Reading the element `k` through its address. -/
theorem deref_addr {h : Heap V} {o : O} {xs : List V} {cap : Nat} (r : L.Rep h o xs cap) (k : Nat) : I.deref h o (I.addr o k) = xs[k]? := by
  have hr2 := r.2
  simp only [Impl.deref, Impl.addr, if_true, r.mem, readCell, cells]
  by_cases hk : k < cap
  · rw [if_pos hk]
  · rw [if_neg hk, List.getElem?_eq_none (by omega)]

/-- C62, `insert` and `emplace` of the contiguous containers, with or without reallocation: if nothing throws the returned iterator is
`begin() + k`; what it refers to and what follows are the new elements, and then the elements that were at the position before. -/
theorem C62_insert {h : Heap V} {o : O} {xs : List V} {cap k : Nat} (r : L.Rep h o xs cap) (hf : Fresh h)
    (src : List (Item V)) (al : Nat → Bool) (hk : k ≤ xs.length) (hne : src = [] → k = xs.length) :
    match I.insertRet h o k src al with
    | .ok (h', o') a => a = I.addr o' k ∧ ∃ cap', L.Rep h' o' (xs.take k ++ src.map (·.val) ++ xs.drop k) cap' ∧
        ∀ j, I.deref h' o' ⟨a.block, a.slot + j⟩ = (src.map (·.val) ++ xs.drop k)[j]?
    | .exn (h', o') => L.Rep h' o' xs cap
    | .ub => False := by
  obtain ⟨h', o', e, r', _⟩ := good_insert r hf src al hk hne
  have hfg := I.insertRet_forget h o k src al
  rw [e] at hfg
  have hs := r.1.2.2
  have hm := r.mem
  cases hg : I.insertRet h o k src al with
  | ub => rw [hg] at hfg; simp only [Gives.forget] at hfg; cases hq : (specInsert L.cfg (xs, cap) k (src.map (·.val)) (!src.any (·.throws)) al).2 <;>
      rw [hq] at hfg <;> simp [Out.of] at hfg
  | exn s =>
    obtain ⟨h2, o2⟩ := s
    rw [hg] at hfg; simp only [Gives.forget] at hfg
    cases hq : (specInsert L.cfg (xs, cap) k (src.map (·.val)) (!src.any (·.throws)) al).2
    · rw [hq] at hfg; simp [Out.of] at hfg
    · rw [hq] at hfg
      simp only [Out.of, if_true, Out.exn.injEq, Prod.mk.injEq] at hfg
      obtain ⟨rfl, rfl⟩ := hfg
      have : (specInsert L.cfg (xs, cap) k (src.map (·.val)) (!src.any (·.throws)) al).1 = (xs, cap) := by
        simp only [specInsert] at hq ⊢
        split at hq
        · split at hq
          · cases hq
          · rename_i h1 h2; rw [if_pos h1, if_neg h2]
        · split at hq
          · rename_i h1 h2; rw [if_neg h1, if_pos h2]
          · cases hq
      rw [this] at r'
      exact r'
  | ok s a =>
    obtain ⟨h2, o2⟩ := s
    rw [hg] at hfg; simp only [Gives.forget] at hfg
    cases hq : (specInsert L.cfg (xs, cap) k (src.map (·.val)) (!src.any (·.throws)) al).2
    · rw [hq] at hfg
      simp only [Out.of, Bool.false_eq_true, if_false, Out.ok.injEq, Prod.mk.injEq] at hfg
      obtain ⟨rfl, rfl⟩ := hfg
      have hx : (specInsert L.cfg (xs, cap) k (src.map (·.val)) (!src.any (·.throws)) al).1.1 = xs.take k ++ src.map (·.val) ++ xs.drop k := by
        simp only [specInsert] at hq ⊢
        split at hq
        · split at hq
          · rename_i h1 h2; rw [if_pos h1, if_pos h2]
          · cases hq
        · split at hq
          · cases hq
          · rename_i h1 h2; rw [if_neg h1, if_neg h2]
      rw [hx] at r'
      have ha : a = I.addr o2 k := by
        simp only [Impl.insertRet, hs, r.view.cap, if_neg (Nat.not_lt.2 hk)] at hg
        split at hg
        · rename_i hroom
          cases hi : I.insertInPlace h o k src with
          | ok s =>
            rw [hi] at hg
            simp only [Gives.of, Gives.ok.injEq] at hg
            obtain ⟨rfl, rfl⟩ := hg
            have := insertInPlace_ptr r.1.1 (by rw [hs, hm]; exact hroom) hi
            simp only [Impl.addr, this]
          | exn s => rw [hi] at hg; cases hg
          | ub => rw [hi] at hg; cases hg
        · split at hg
          · cases hi : I.insertRealloc h o cap k src al with
            | ok s =>
              rw [hi] at hg
              simp only [Gives.of, Gives.ok.injEq] at hg
              obtain ⟨rfl, rfl⟩ := hg
              rfl
            | exn s => rw [hi] at hg; cases hg
            | ub => rw [hi] at hg; cases hg
          · cases hg
      refine ⟨ha, _, r', fun j => ?_⟩
      subst ha
      have := deref_addr r' (k + j)
      simp only [Impl.addr] at this ⊢
      rw [this, List.append_assoc, List.getElem?_append_right (by rw [List.length_take]; omega), List.length_take]
      congr 1; omega
    · rw [hq] at hfg; simp [Out.of] at hfg

/-- C62, `erase` of the contiguous containers: the returned iterator is `begin() + first`, and what it refers to and what follows are the
elements after the erased ones (if there is none it is `end()`). -/
theorem C62_erase {h : Heap V} {o : O} {xs : List V} {cap a b : Nat} (r : L.Rep h o xs cap) (hab : a ≤ b) (hb : b ≤ xs.length) :
    ∃ h' o', I.eraseRet h o a b = .ok (h', o') (I.addr o' a) ∧ L.Rep h' o' (xs.take a ++ xs.drop b) cap ∧
      ∀ j, I.deref h' o' ⟨I.ptr o', a + j⟩ = xs[b + j]? := by
  obtain ⟨h', o', e, r', _⟩ := good_erase r hab hb
  refine ⟨h', o', ?_, r', fun j => ?_⟩
  · simp only [Impl.eraseRet]
    by_cases hab' : a = b
    · subst hab'
      simp only [Impl.erase, if_true, Out.of, Bool.false_eq_true, if_false, Out.ok.injEq, Prod.mk.injEq] at e
      rw [if_pos rfl, e.1, e.2]
    · rw [if_neg hab', e]; rfl
  · rw [show (⟨I.ptr o', a + j⟩ : Addr) = I.addr o' (a + j) from rfl, deref_addr r',
      List.getElem?_append_right (by rw [List.length_take]; omega), List.length_take, List.getElem?_drop]
    congr 1; omega

/-- C62, `push_back` and `emplace_back` of the contiguous containers: the returned reference refers to the new element, which is the last one. The
new element may be a copy of an element of the container. -/
theorem C62_push_back {h : Heap V} {o : O} {xs : List V} {cap : Nat} (r : L.Rep h o xs cap) (hf : Fresh h) (c : PSrc V) (v : V) (t : Bool)
    (hc : c = .lit v t ∨ ∃ k, c = .self k t ∧ xs[k]? = some v) (al : Nat → Bool) (hp : pushPre L.cfg (xs, cap)) :
    match I.pushRet h o c al with
    | .ok (h', o') a => a = I.addr o' xs.length ∧ (∃ cap', L.Rep h' o' (xs ++ [v]) cap') ∧ I.deref h' o' a = some v
    | .exn (h', o') => L.Rep h' o' xs cap
    | .ub => False := by
  obtain ⟨h', o', e, r', _⟩ := good_push r hf c v t al hp hc
  have hfg := I.pushRet_forget h o c al
  rw [e] at hfg
  have hs := r.1.2.2
  have hm := r.mem
  cases hg : I.pushRet h o c al with
  | ub =>
    rw [hg] at hfg; simp only [Gives.forget] at hfg
    cases hq : (specPush L.cfg (xs, cap) v t al).2 <;> rw [hq] at hfg <;> simp [Out.of] at hfg
  | exn s =>
    obtain ⟨h2, o2⟩ := s
    rw [hg] at hfg; simp only [Gives.forget] at hfg
    cases hq : (specPush L.cfg (xs, cap) v t al).2
    · rw [hq] at hfg; simp [Out.of] at hfg
    · rw [hq] at hfg
      simp only [Out.of, if_true, Out.exn.injEq, Prod.mk.injEq] at hfg
      obtain ⟨rfl, rfl⟩ := hfg
      have : (specPush L.cfg (xs, cap) v t al).1 = (xs, cap) := by
        revert hq
        simp only [specPush]
        repeat' split
        all_goals simp
      rw [this] at r'
      exact r'
  | ok s a =>
    obtain ⟨h2, o2⟩ := s
    rw [hg] at hfg; simp only [Gives.forget] at hfg
    cases hq : (specPush L.cfg (xs, cap) v t al).2
    · rw [hq] at hfg
      simp only [Out.of, Bool.false_eq_true, if_false, Out.ok.injEq, Prod.mk.injEq] at hfg
      obtain ⟨rfl, rfl⟩ := hfg
      have hx : (specPush L.cfg (xs, cap) v t al).1.1 = xs ++ [v] := by
        revert hq
        simp only [specPush]
        repeat' split
        all_goals simp
      rw [hx] at r'
      have ha : a = I.addr o2 xs.length := by
        simp only [Impl.pushRet, hs, r.view.cap] at hg
        split at hg
        · cases hg
        · split at hg
          · rename_i hroom
            cases hi : I.pushInto h o c with
            | ok s =>
              rw [hi] at hg
              simp only [Gives.of, Gives.ok.injEq] at hg
              obtain ⟨rfl, rfl⟩ := hg
              have := pushInto_ptr r.1.1 (by rw [hs, hm]; exact hroom) hi
              simp only [Impl.addr, this]
            | exn s => rw [hi] at hg; cases hg
            | ub => rw [hi] at hg; cases hg
          · cases hi : I.pushBack h o c al with
            | ok s =>
              rw [hi] at hg
              simp only [Gives.of, Gives.ok.injEq] at hg
              obtain ⟨rfl, rfl⟩ := hg
              have := r'.1.2.2
              simp only [List.length_append, List.length_singleton] at this
              simp only [Impl.addr, this, Nat.add_sub_cancel]
            | exn s => rw [hi] at hg; cases hg
            | ub => rw [hi] at hg; cases hg
      refine ⟨ha, ⟨_, r'⟩, ?_⟩
      rw [ha, deref_addr r']
      simp
    · rw [hq] at hfg; simp [Out.of] at hfg

/-! ### Examples -/

/-- The address that was returned, whether it is `begin() + k` of the container as it is then, and what it refers to. -/
def gave {O : Type} (I : Impl Nat O) (k : Nat) (r : Gives (Heap Nat × O)) : Option (Addr × Bool × Option Nat) :=
  match r with
  | .ok (h, o) a => some (a, decide (a = I.addr o k), I.deref h o a)
  | _ => none

/-- Without reallocation the iterator is in the old block, with reallocation in the new one; a `static_vector` has no block. -/
example :
    gave (vec Nat 0 9) 1 ((vec Nat 0 9).insertRet (aliasHeap 5).1 (aliasHeap 5).2 1 [⟨7, false⟩, ⟨8, false⟩] fun _ => false) =
      some (⟨some 0, 1⟩, true, some 7) ∧
    gave (vec Nat 0 9) 1 ((vec Nat 0 9).insertRet (aliasHeap 4).1 (aliasHeap 4).2 1 [⟨7, false⟩, ⟨8, false⟩] fun _ => false) =
      some (⟨some 1, 1⟩, true, some 7) ∧
    gave (stat Nat 4) 3 ((stat Nat 4).insertRet ⟨fun _ => none, 0⟩ alias123 3 [⟨7, false⟩] fun _ => false) = some (⟨none, 3⟩, true, some 7) ∧
    gave (vec Nat 0 9) 0 ((vec Nat 0 9).eraseRet (aliasHeap 3).1 (aliasHeap 3).2 0 2) = some (⟨some 0, 0⟩, true, some 3) ∧
    gave (vec Nat 0 9) 1 ((vec Nat 0 9).eraseRet (aliasHeap 3).1 (aliasHeap 3).2 1 3) = some (⟨some 0, 1⟩, true, none) ∧
    gave (vec Nat 0 9) 3 ((vec Nat 0 9).pushRet (aliasHeap 3).1 (aliasHeap 3).2 (.self 0 false) fun _ => false) =
      some (⟨some 1, 3⟩, true, some 1) ∧
    gave (vec Nat 0 9) 3 ((vec Nat 0 9).pushRet (aliasHeap 4).1 (aliasHeap 4).2 (.lit 6 false) fun _ => false) =
      some (⟨some 0, 3⟩, true, some 6) := by
  refine ⟨?_, ?_, ?_, ?_, ?_, ?_, ?_⟩ <;> decide +kernel

end Verif.Containers
