import Verif.Containers.GenericProps
import Verif.Containers.StaticVector

/-!
# Moving the elements out of a container (property C57)

Building a container from, or appending, an rvalue container with `set_size` (`vector`, `static_vector`, `sbo_vector`, `string`, ...) of
elements that are not trivially copyable relocates the elements one by one and then sets the size of the source to zero.
-/

namespace Verif.Containers

open Verif Impl Lawful

variable {U V O τ : Type}

/-- The container whose elements are taken: its storage, which is not that of the target, and its size. -/
structure Donor (U : Type) where
  cap : Nat
  cell : Cells U
  size : Nat

namespace Donor

/-- The container holds exactly these elements. -/
def Holds (d : Donor U) (ys : List U) : Prop := d.cell = (fun k => ys[k]?) ∧ d.size = ys.length ∧ ys.length ≤ d.cap

/-- The destructor of the container: destroys the elements `[0, size)`. An element that is alive afterwards would never be destroyed. -/
def dtor (d : Donor U) : Option Unit :=
  match destroyRange d.cap d.cell 0 d.size with
  | none => none
  | some c => if ∀ k < d.cap, (c k).isNone then some () else none

end Donor

/-- What `function(make)` does: it calls `make` once and ends normally, or throws before or after the call of `make`. -/
inductive FnOut (τ : Type) where
  | ok (t : τ)
  | before (t : τ)
  | after (t : τ)
  | ub

/-- source/containers/algorithms/copy_or_relocate_from.cpp 41-43. `make` moves the element into a temporary or its final place and
destroys the original (source/bounded/relocate.cpp 16-23). `n` is `last - it`. -/
def relocLoop (f : τ → U → FnOut τ) (cap : Nat) : Nat → Cells U → Nat → τ → Out (Cells U × τ)
  | 0, a, _, t => .ok (a, t)
  | n + 1, a, k, t =>
    match readCell cap a k with
    | none => .ub
    | some u =>
      match f t u with
      | .ub => .ub
      | .before t' => .exn (a, t')
      | .after t' =>
        match destroy cap a k with
        | none => .ub
        | some a' => .exn (a', t')
      | .ok t' =>
        match destroy cap a k with
        | none => .ub
        | some a' => relocLoop f cap n a' (k + 1) t'

/-- source/containers/algorithms/copy_or_relocate_from.cpp 27-51 when `use_relocate` holds. The size is set only after the loop. -/
def copyOrRelocateFrom (f : τ → U → FnOut τ) (d : Donor U) (t : τ) : Out (Donor U × τ) :=
  match relocLoop f d.cap d.size d.cell 0 t with
  | .ok (a, t') => .ok ({ d with cell := a, size := 0 }, t')
  | .exn (a, t') => .exn ({ d with cell := a }, t')
  | .ub => .ub

/-- source/containers/algorithms/uninitialized.cpp 40-52 `construct_at_output`, for a target whose elements are constructed from those
of the source: `conv u` says the element that is made and whether its constructor throws. -/
def constructAtOutput (conv : U → Item V) (cap : Nat) (s : Cells V × Nat) (u : U) : FnOut (Cells V × Nat) :=
  if (conv u).throws then .after s
  else
    match construct cap s.1 s.2 (conv u).val with
    | none => .ub
    | some m => .ok (m, s.2 + 1)

/-- source/containers/algorithms/uninitialized.cpp 54-63 `uninitialized_copy` of an rvalue container. -/
def uninitCopyFrom (conv : U → Item V) (cap : Nat) (m : Cells V) (out : Nat) (d : Donor U) : Out (Donor U × Cells V) :=
  match copyOrRelocateFrom (constructAtOutput conv cap) d (m, out) with
  | .ok (d', m', _) => .ok (d', m')
  | .exn (d', m', out') =>
    match destroyRange cap m' out (out' - out) with
    | some m'' => .exn (d', m'')
    | none => .ub
  | .ub => .ub

namespace Impl

/-- `uninitialized_copy_no_overlap(std::move(source), data() + pos)`. -/
def copyAtFrom (I : Impl V O) (conv : U → Item V) (h : Heap V) (o : O) (pos : Nat) (d : Donor U) : Out (Donor U × Heap V × O) :=
  match uninitCopyFrom conv (I.mem h o).1 (I.mem h o).2 pos d with
  | .ok (d', c) => .ok (d', I.put h o c)
  | .exn (d', c) => .exn (d', I.put h o c)
  | .ub => .ub

/-- `container.set_size(n)` once the elements are there. -/
def finishFrom (I : Impl V O) (d : Donor U) (r : Option (Heap V × O)) (n : Nat) : Out (Donor U × Heap V × O) :=
  match I.finish r n with
  | .ok r => .ok (d, r)
  | .exn r => .exn (d, r)
  | .ub => .ub

/-- An exception leaves the scope of the temporary `t`. -/
def failTempFrom (I : Impl V O) (d : Donor U) (h : Heap V) (t o : O) : Out (Donor U × Heap V × O) :=
  match I.failTemp h t o with
  | .ok r => .ok (d, r)
  | .exn r => .exn (d, r)
  | .ub => .ub

/-- source/containers/append.cpp 40-54 for an rvalue container as the source. Line 41: the size is read first. -/
def appendFrom (I : Impl V O) (conv : U → Item V) (h : Heap V) (o : O) (d : Donor U) (al : Nat → Bool) : Out (Donor U × Heap V × O) :=
  match I.capacity o with
  | none => .ub
  | some cap =>
    if I.size o + d.size ≤ cap then
      match I.copyAtFrom conv h o (I.size o) d with
      | .ub => .ub
      | .exn r => .exn r
      | .ok (d', r) => I.finishFrom d' (some r) (I.size o + d.size)
    else
      match I.new h (al 0) with
      | .exn => .exn (d, h, o)
      | .ub => .ub
      | .ok (h1, t) =>
        match I.expForceReserve h1 t cap (I.size o + d.size) (al 1) with
        | .ub => .ub
        | .exn (h2, t2) => I.failTempFrom d h2 t2 o
        | .ok (h2, t2) =>
          match I.copyAtFrom conv h2 t2 (I.size o) d with
          | .ub => .ub
          | .exn (d', h3, t3) => I.failTempFrom d' h3 t3 o
          | .ok (d', h3, t3) =>
            match I.relocInto h3 o t3 0 0 (I.size o) with
            | none => .ub
            | some (h4, o4, t4) => I.finishFrom d' (I.takeOver h4 o4 t4) (I.size o + d.size)

/-- source/containers/append_into_capacity.cpp 34-40 for an rvalue container as the source. Line 38: the size is read first. -/
def appendIntoCapacityFrom (I : Impl V O) (conv : U → Item V) (h : Heap V) (o : O) (d : Donor U) : Out (Donor U × Heap V × O) :=
  match I.copyAtFrom conv h o (I.size o) d with
  | .ub => .ub
  | .exn r => .exn r
  | .ok (d', r) => I.finishFrom d' (some r) (I.size o + d.size)

/-- source/containers/assign_to_empty.cpp 60-71 for an rvalue container as the source and a target with `reserve` whose capacity may
be too small. Line 66: the size is read first. -/
def assignToEmptyFrom (I : Impl V O) (conv : U → Item V) (h : Heap V) (o : O) (d : Donor U) (al : Nat → Bool) : Out (Donor U × Heap V × O) :=
  if I.size o ≠ 0 then .ub
  else
    match I.capacity o with
    | none => .ub
    | some cap =>
      if I.mx < d.size then .ub
      else
        match (if cap < d.size then I.replaceEmpty h o d.size (al 0) else .ok (h, o)) with
        | .ub => .ub
        | .exn r => .exn (d, r)
        | .ok (h1, o1) =>
          match I.copyAtFrom conv h1 o1 0 d with
          | .ub => .ub
          | .exn r => .exn r
          | .ok (d', r) => I.finishFrom d' (some r) d.size

/-- source/containers/assign_to_empty.cpp 63-64 with source/containers/assign_to_empty_into_capacity.cpp 37-50 for an rvalue container
as the source, when its size always fits in the capacity of the target: `static_vector<T, 5>` from `static_vector<T, 3> &&`. Lines
43-49: the size of the source is read after its elements were taken. -/
def assignToEmptyIntoCapacityFrom (I : Impl V O) (conv : U → Item V) (h : Heap V) (o : O) (d : Donor U) : Out (Donor U × Heap V × O) :=
  if I.size o ≠ 0 then .ub
  else
    match I.copyAtFrom conv h o 0 d with
    | .ub => .ub
    | .exn r => .exn r
    | .ok (d', r) => I.finishFrom d' (some r) d'.size

/-- source/containers/insert.cpp 40-59 `insert_without_reallocation` for an rvalue container as the source. -/
def insertInPlaceFrom (I : Impl V O) (conv : U → Item V) (h : Heap V) (o : O) (k : Nat) (d : Donor U) : Out (Donor U × Heap V × O) :=
  match I.modify h o fun cap m => relocBack cap m (I.size o) (I.size o + d.size) (I.size o - k) with
  | none => .ub
  | some (h1, o1) =>
    match I.copyAtFrom conv h1 o1 k d with
    | .ub => .ub
    | .exn (d', h2, o2) =>
      match I.modify h2 o2 fun cap m => relocFwd cap m (k + d.size) k (I.size o - k) with
      | none => .ub
      | some r => .exn (d', r)
    | .ok (d', r) => I.finishFrom d' (some r) (I.size o + d.size)

/-- source/containers/insert.cpp 61-89 `insert_with_reallocation` for an rvalue container as the source. -/
def insertReallocFrom (I : Impl V O) (conv : U → Item V) (h : Heap V) (o : O) (cap k : Nat) (d : Donor U) (al : Nat → Bool) : Out (Donor U × Heap V × O) :=
  match I.new h (al 0) with
  | .exn => .exn (d, h, o)
  | .ub => .ub
  | .ok (h1, t) =>
    match I.expForceReserve h1 t cap (I.size o + d.size) (al 1) with
    | .ub => .ub
    | .exn (h2, t2) => I.failTempFrom d h2 t2 o
    | .ok (h2, t2) =>
      match I.copyAtFrom conv h2 t2 k d with
      | .ub => .ub
      | .exn (d', h3, t3) => I.failTempFrom d' h3 t3 o
      | .ok (d', h3, t3) =>
        match I.relocInto h3 o t3 0 0 k with
        | none => .ub
        | some (h4, o4, t4) =>
          match I.relocInto h4 o4 t4 k (k + d.size) (I.size o - k) with
          | none => .ub
          | some (h5, o5, t5) =>
            match I.setSize t5 (I.size o + d.size) with
            | none => .ub
            | some t6 =>
              match I.takeOver h5 o5 t6 with
              | none => .ub
              | some r => .ok (d', r)

/-- source/containers/insert.cpp 109-135 `insert` at position `k` of an rvalue container. Line 118: the size is read first. -/
def insertFrom (I : Impl V O) (conv : U → Item V) (h : Heap V) (o : O) (k : Nat) (d : Donor U) (al : Nat → Bool) : Out (Donor U × Heap V × O) :=
  if I.size o < k then .ub
  else
    match I.capacity o with
    | none => .ub
    | some cap =>
      if I.size o + d.size ≤ cap then I.insertInPlaceFrom conv h o k d
      else if I.reservable then I.insertReallocFrom conv h o cap k d al
      else .exn (d, h, o)

end Impl

/-! ## The loop -/

/-- Calling the function with the elements in order until it throws, and the number of elements it made. -/
def feed (f : τ → U → FnOut τ) : τ → List U → Out τ × Nat
  | t, [] => (.ok t, 0)
  | t, u :: us =>
    match f t u with
    | .ok t' => ((feed f t' us).1, (feed f t' us).2 + 1)
    | .before t' => (.exn t', 0)
    | .after t' => (.exn t', 1)
    | .ub => (.ub, 0)

theorem feed_le (f : τ → U → FnOut τ) : ∀ (ys : List U) (t : τ), (feed f t ys).2 ≤ ys.length
  | [], _ => by simp [feed]
  | u :: us, t => by
    rw [feed]
    cases h : f t u with
    | ok t' => have := feed_le f us t'; simp only [List.length_cons]; omega
    | before t' => simp
    | after t' => simp
    | ub => simp

theorem feed_ok (f : τ → U → FnOut τ) : ∀ (ys : List U) (t : τ) {t' : τ}, (feed f t ys).1 = .ok t' → (feed f t ys).2 = ys.length
  | [], _, _, _ => by simp [feed]
  | u :: us, t, t', h => by
    rw [feed] at h ⊢
    cases h1 : f t u with
    | ok t2 => rw [h1] at h; simp only [List.length_cons, feed_ok f us t2 h]
    | before t2 => rw [h1] at h; cases h
    | after t2 => rw [h1] at h; cases h
    | ub => rw [h1] at h; cases h

theorem cleared_zero (a : Cells U) (k : Nat) : cleared a k 0 = a := by
  funext j; simp only [cleared]; rw [if_neg (by omega)]

theorem relocLoop_eq (f : τ → U → FnOut τ) (cap : Nat) : ∀ (ys : List U) (a : Cells U) (k : Nat) (t : τ), k + ys.length ≤ cap →
    (∀ j (h : j < ys.length), a (k + j) = some ys[j]) →
    relocLoop f cap ys.length a k t = (feed f t ys).1.bind (fun t' => .ok (cleared a k (feed f t ys).2, t'))
      (fun t' => (cleared a k (feed f t ys).2, t'))
  | [], a, k, t, _, _ => by
    simp only [List.length_nil, relocLoop, feed, Out.bind, cleared_zero]
  | u :: us, a, k, t, hc, hl => by
    simp only [List.length_cons] at hc hl
    have h0 := hl 0 (by omega)
    simp only [Nat.add_zero, List.getElem_cons_zero] at h0
    have hd : destroy cap a k = some (upd a k none) := by
      simp only [destroy, h0, Option.isSome_some, and_true]; rw [if_pos (by omega)]
    simp only [List.length_cons, relocLoop, readCell, if_pos (show k < cap by omega), h0]
    rw [feed]
    cases h1 : f t u with
    | ub => rfl
    | before t' => simp only [Out.bind, cleared_zero]
    | after t' =>
      simp only [hd, Out.bind]
      congr 2
      funext j
      simp only [upd, cleared]
      by_cases hj : j = k
      · subst hj; rw [if_pos rfl, if_pos (by omega)]
      · rw [if_neg hj, if_neg (by omega)]
    | ok t' =>
      simp only [hd]
      rw [relocLoop_eq f cap us (upd a k none) (k + 1) t' (by omega) (by
        intro j hj
        rw [upd_other _ _ (by omega), show k + 1 + j = k + (j + 1) by omega, hl (j + 1) (by omega), List.getElem_cons_succ])]
      have e : cleared (upd a k none) (k + 1) (feed f t' us).2 = cleared a k ((feed f t' us).2 + 1) := by
        funext j
        simp only [upd, cleared]
        by_cases hj : j = k
        · subst hj; rw [if_neg (by omega), if_pos rfl, if_pos (by omega)]
        · by_cases h2 : k + 1 ≤ j ∧ j < k + 1 + (feed f t' us).2
          · rw [if_pos h2, if_pos (by omega)]
          · rw [if_neg h2, if_neg hj, if_neg (by omega)]
      rw [e]

theorem copyOrRelocateFrom_eq (f : τ → U → FnOut τ) {d : Donor U} {ys : List U} (hd : d.Holds ys) (t : τ) :
    copyOrRelocateFrom f d t = (feed f t ys).1.bind (fun t' => .ok (⟨d.cap, fun _ => none, 0⟩, t'))
      (fun t' => (⟨d.cap, cleared d.cell 0 (feed f t ys).2, d.size⟩, t')) := by
  obtain ⟨h1, h2, h3⟩ := hd
  have := relocLoop_eq f d.cap ys d.cell 0 t (by omega) (by
    intro j hj; rw [h1, Nat.zero_add]; simp [hj])
  rw [← h2] at this
  rw [copyOrRelocateFrom, this]
  cases h : (feed f t ys).1 with
  | ub => rfl
  | exn t' => rfl
  | ok t' =>
    simp only [Out.bind]
    congr 3
    funext j
    rw [feed_ok f ys t h]
    simp only [cleared]
    by_cases hj : j < ys.length
    · rw [if_pos (by omega)]
    · rw [if_neg (by omega), h1]
      show ys[j]? = none
      exact List.getElem?_eq_none (by omega)

/-- **C57**: `copy_or_relocate_from` an rvalue container with any function. The function is called with the elements in order. If it
never throws, the source ends up empty: no element is alive and the size is zero. -/
theorem C57_move_elements (f : τ → U → FnOut τ) {d : Donor U} {ys : List U} (hd : d.Holds ys) {t t' : τ} (h : (feed f t ys).1 = .ok t') :
    ∃ d', copyOrRelocateFrom f d t = .ok (d', t') ∧ d'.Holds [] ∧ d'.dtor = some () := by
  refine ⟨_, by rw [copyOrRelocateFrom_eq f hd t, h]; rfl, ⟨by funext k; simp, rfl, by simp⟩, ?_⟩
  simp [Donor.dtor, destroyRange]

/-- C57 fails when the function throws after the first element was taken, whatever the function: the elements that were taken are gone,
the source still says it has them, and its destructor destroys them a second time. -/
theorem C57_exception_violated (f : τ → U → FnOut τ) {d : Donor U} {ys : List U} (hd : d.Holds ys) {t t' : τ} (h : (feed f t ys).1 = .exn t')
    (hn : 0 < (feed f t ys).2) : ∃ d', copyOrRelocateFrom f d t = .exn (d', t') ∧ d'.size = ys.length ∧ d'.cell 0 = none ∧ d'.dtor = none := by
  have hs := hd.2.1
  have hle := feed_le f ys t
  have h0 : cleared d.cell 0 (feed f t ys).2 0 = none := by simp only [cleared]; rw [if_pos (by omega)]
  refine ⟨⟨d.cap, cleared d.cell 0 (feed f t ys).2, d.size⟩, by rw [copyOrRelocateFrom_eq f hd t, h]; rfl, hs, h0, ?_⟩
  obtain ⟨n, hn'⟩ : ∃ n, d.size = n + 1 := ⟨d.size - 1, by omega⟩
  have : destroy d.cap (cleared d.cell 0 (feed f t ys).2) 0 = none := by simp [destroy, h0]
  simp only [Donor.dtor, hn', destroyRange, this, Option.bind_none]

/-- An exception before anything was taken changes nothing. -/
theorem copyOrRelocateFrom_first (f : τ → U → FnOut τ) {d : Donor U} {ys : List U} (hd : d.Holds ys) {t t' : τ} (h : (feed f t ys).1 = .exn t')
    (hn : (feed f t ys).2 = 0) : copyOrRelocateFrom f d t = .exn (d, t') := by
  rw [copyOrRelocateFrom_eq f hd t, h, hn, cleared_zero]; rfl

/-- Appending to a list (source/containers/append.cpp 74-82) allocates a node and then makes the element in it. `al k` is the fate of the
`k`-th allocation. -/
def listNode (al : Nat → Bool) (s : List U) (u : U) : FnOut (List U) := if al s.length then .before s else .ok (s ++ [u])

/-- `list.append(std::move(vector))` runs out of memory for the second node: the first element of the vector is destroyed twice. -/
example : feed (listNode fun k => k == 1) [] [10, 20, 30] = (.exn [10], 1) := rfl

example : (⟨3, fun k => [10, 20, 30][k]?, 3⟩ : Donor Nat).Holds [10, 20, 30] ∧
    (feed (listNode fun _ => false) [] [10, 20, 30]).1 = .ok [10, 20, 30] := ⟨⟨rfl, rfl, by decide⟩, rfl⟩

/-! ## Into a contiguous container -/

theorem feed_construct (conv : U → Item V) (cap : Nat) : ∀ (ys : List U) (m : Cells V) (out : Nat),
    (feed (constructAtOutput conv cap) (m, out) ys).1 = copyLoop cap m out (ys.map conv)
  | [], m, out => rfl
  | y :: ys, m, out => by
    simp only [feed, constructAtOutput, List.map_cons, copyLoop]
    cases h0 : (conv y).throws with
    | true => rfl
    | false =>
      simp only [Bool.false_eq_true, if_false]
      cases hc : construct cap m out (conv y).val with
      | none => rfl
      | some m' => exact feed_construct conv cap ys m' (out + 1)

/-- C57, what happens to the target when making an element throws: every element already made in the target is destroyed again, its
storage is as before. (What happens to the source is `C57_exception_violated`.) -/
theorem C57_exception_target {conv : U → Item V} {cap : Nat} {m : Cells V} {out : Nat} {d : Donor U} {ys : List U} (hd : d.Holds ys)
    (ht : ∃ y ∈ ys, (conv y).throws = true) (hroom : out + ys.length ≤ cap) (hraw : ∀ j, out ≤ j → j < out + ys.length → m j = none) :
    ∃ d', uninitCopyFrom conv cap m out d = .exn (d', m) ∧ d'.cap = d.cap ∧ d'.size = d.size := by
  have e := feed_construct conv cap ys m out
  obtain ⟨y, hy, hyt⟩ := ht
  have hx : uninitCopy cap m out (ys.map conv) = .exn m := by
    refine uninitCopy_exn ?_ (by simpa using hroom) (by simpa using hraw)
    rw [noThrow, Bool.not_eq_false', List.any_eq_true]; exact ⟨conv y, List.mem_map.2 ⟨y, hy, rfl⟩, hyt⟩
  rw [uninitCopy] at hx
  rw [uninitCopyFrom, copyOrRelocateFrom_eq _ hd, e]
  cases hc : copyLoop cap m out (ys.map conv) with
  | ub => rw [hc] at hx; cases hx
  | ok r => rw [hc] at hx; cases hx
  | exn r =>
    rw [hc] at hx
    simp only [Out.bind] at hx ⊢
    cases hr : destroyRange cap r.1 out (r.2 - out) with
    | none => rw [hr] at hx; cases hx
    | some c =>
      rw [hr] at hx
      simp only [Out.exn.injEq] at hx
      exact ⟨⟨d.cap, cleared d.cell 0 (feed (constructAtOutput conv cap) (m, out) ys).2, d.size⟩, by rw [hx], rfl, rfl⟩

example : (⟨3, fun k => [10, 20, 30][k]?, 3⟩ : Donor Nat).Holds [10, 20, 30] ∧
    (∃ y ∈ [10, 20, 30], ((fun u => ⟨u, u == 20⟩ : Nat → Item Nat) y).throws = true) := ⟨⟨rfl, rfl, by decide⟩, 20, by decide, rfl⟩

theorem copyLoop_nothrow (cap : Nat) : ∀ (src : List (Item V)) (m : Cells V) (out : Nat), (∀ it ∈ src, it.throws = false) →
    ∀ r, copyLoop cap m out src ≠ .exn r
  | [], m, out, _, r => by simp [copyLoop]
  | it :: its, m, out, h, r => by
    have h0 := h it (by simp)
    simp only [copyLoop, h0, Bool.false_eq_true, if_false]
    cases hc : construct cap m out it.val with
    | none => simp
    | some m' => exact copyLoop_nothrow cap its m' (out + 1) (fun z hz => h z (by simp [hz])) r

/-- The container after its elements were taken. -/
def Donor.emptied (d : Donor U) : Donor U := ⟨d.cap, fun _ => none, 0⟩

theorem Donor.emptied_holds (d : Donor U) : d.emptied.Holds [] := ⟨by funext k; simp [Donor.emptied], rfl, by simp⟩

theorem copyAtFrom_eq (I : Impl V O) {conv : U → Item V} {d : Donor U} {ys : List U} (hd : d.Holds ys) (hn : ∀ y ∈ ys, (conv y).throws = false)
    (h : Heap V) (o : O) (pos : Nat) :
    I.copyAtFrom conv h o pos d = (I.copyAt h o pos (ys.map conv)).bind (fun r => .ok (d.emptied, r)) (fun r => (d, r)) := by
  have e := feed_construct conv (I.mem h o).1 ys (I.mem h o).2 pos
  have hne := copyLoop_nothrow (I.mem h o).1 (ys.map conv) (I.mem h o).2 pos (by
    intro it hit; obtain ⟨y, hy, rfl⟩ := List.mem_map.1 hit; exact hn y hy)
  simp only [copyAtFrom, uninitCopyFrom, copyOrRelocateFrom_eq _ hd, e, copyAt, uninitCopy]
  cases hc : copyLoop (I.mem h o).1 (I.mem h o).2 pos (ys.map conv) with
  | ub => rfl
  | exn r => exact absurd hc (hne r)
  | ok r => rfl

/-- What the operation does to the target is what it does for a source that is only read; the source is empty afterwards, or as it was
if the operation throws. -/
def Moved (d : Donor U) (r : Out (Heap V × O)) : Out (Donor U × Heap V × O) := r.bind (fun r => .ok (d.emptied, r)) (fun r => (d, r))

theorem copyAt_not_exn (I : Impl V O) {src : List (Item V)} (hn : ∀ it ∈ src, it.throws = false) (h : Heap V) (o : O) (pos : Nat) (r : Heap V × O) :
    I.copyAt h o pos src ≠ .exn r := by
  have hne := copyLoop_nothrow (I.mem h o).1 src (I.mem h o).2 pos hn
  simp only [copyAt, uninitCopy]
  cases hc : copyLoop (I.mem h o).1 (I.mem h o).2 pos src with
  | ub => simp
  | exn r => exact absurd hc (hne r)
  | ok r => simp

theorem finish_not_exn (I : Impl V O) (r : Option (Heap V × O)) (n : Nat) (s : Heap V × O) : I.finish r n ≠ .exn s := by
  cases r with
  | none => simp [finish]
  | some r =>
    obtain ⟨h, o⟩ := r
    simp only [finish]
    cases I.setSize o n <;> simp

theorem finishFrom_eq (I : Impl V O) (d : Donor U) (r : Option (Heap V × O)) (n : Nat) : I.finishFrom d.emptied r n = Moved d (I.finish r n) := by
  simp only [finishFrom, Moved]
  cases hf : I.finish r n with
  | ub => rfl
  | exn s => exact absurd hf (finish_not_exn I r n s)
  | ok s => rfl

theorem failTempFrom_eq (I : Impl V O) (d : Donor U) (h : Heap V) (t o : O) : I.failTempFrom d h t o = Moved d (I.failTemp h t o) := by
  simp only [failTempFrom, failTemp, Moved]
  cases I.dtor h t <;> rfl

theorem appendFrom_eq (I : Impl V O) (hr : I.reservable = true) {conv : U → Item V} {d : Donor U} {ys : List U} (hd : d.Holds ys)
    (hn : ∀ y ∈ ys, (conv y).throws = false) (h : Heap V) (o : O) (al : Nat → Bool) :
    I.appendFrom conv h o d al = Moved d (I.append h o (ys.map conv) al) := by
  have hs := hd.2.1
  have hne := fun h o pos r => copyAt_not_exn I (src := ys.map conv) (by
    intro it hit; obtain ⟨y, hy, rfl⟩ := List.mem_map.1 hit; exact hn y hy) h o pos r
  simp only [appendFrom, append, hr, if_true, List.length_map, hs, copyAtFrom_eq I hd hn]
  cases I.capacity o with
  | none => rfl
  | some cap =>
    by_cases hc : I.size o + ys.length ≤ cap
    · simp only [if_pos hc]
      cases h1 : I.copyAt h o (I.size o) (ys.map conv) with
      | ub => rfl
      | exn r => exact absurd h1 (hne _ _ _ _)
      | ok r => exact finishFrom_eq I d _ _
    · simp only [if_neg hc]
      cases I.new h (al 0) with
      | exn => rfl
      | ub => rfl
      | ok r1 =>
        obtain ⟨h1, t⟩ := r1
        dsimp only
        cases I.expForceReserve h1 t cap (I.size o + ys.length) (al 1) with
        | ub => rfl
        | exn r2 => exact failTempFrom_eq I d _ _ _
        | ok r2 =>
          obtain ⟨h2, t2⟩ := r2
          dsimp only
          cases h5 : I.copyAt h2 t2 (I.size o) (ys.map conv) with
          | ub => rfl
          | exn r => exact absurd h5 (hne _ _ _ _)
          | ok r3 =>
            obtain ⟨h3, t3⟩ := r3
            simp only [Out.bind]
            cases I.relocInto h3 o t3 0 0 (I.size o) with
            | none => rfl
            | some r4 =>
              obtain ⟨h4, o4, t4⟩ := r4
              exact finishFrom_eq I d _ _

theorem insertFrom_eq (I : Impl V O) {conv : U → Item V} {d : Donor U} {ys : List U} (hd : d.Holds ys)
    (hn : ∀ y ∈ ys, (conv y).throws = false) (h : Heap V) (o : O) (k : Nat) (al : Nat → Bool) :
    I.insertFrom conv h o k d al = Moved d (I.insert h o k (ys.map conv) al) := by
  have hs := hd.2.1
  have hne := fun h o pos r => copyAt_not_exn I (src := ys.map conv) (by
    intro it hit; obtain ⟨y, hy, rfl⟩ := List.mem_map.1 hit; exact hn y hy) h o pos r
  simp only [insertFrom, Impl.insert]
  by_cases hk : I.size o < k
  · simp only [if_pos hk]; rfl
  simp only [if_neg hk, List.length_map, hs]
  cases I.capacity o with
  | none => rfl
  | some cap =>
    dsimp only
    by_cases hc : I.size o + ys.length ≤ cap
    · simp only [if_pos hc, insertInPlaceFrom, insertInPlace, copyAtFrom_eq I hd hn, List.length_map, hs]
      cases (I.modify h o fun cap m => relocBack cap m (I.size o) (I.size o + ys.length) (I.size o - k)) with
      | none => rfl
      | some r1 =>
        obtain ⟨h1, o1⟩ := r1
        dsimp only
        cases h2 : I.copyAt h1 o1 k (ys.map conv) with
        | ub => rfl
        | exn r => exact absurd h2 (hne _ _ _ _)
        | ok r => exact finishFrom_eq I d _ _
    · simp only [if_neg hc]
      cases I.reservable with
      | false => rfl
      | true =>
        simp only [if_true, insertReallocFrom, insertRealloc, copyAtFrom_eq I hd hn, List.length_map, hs]
        cases I.new h (al 0) with
        | exn => rfl
        | ub => rfl
        | ok r1 =>
          obtain ⟨h1, t⟩ := r1
          dsimp only
          cases I.expForceReserve h1 t cap (I.size o + ys.length) (al 1) with
          | ub => rfl
          | exn r2 => exact failTempFrom_eq I d _ _ _
          | ok r2 =>
            obtain ⟨h2, t2⟩ := r2
            dsimp only
            cases h5 : I.copyAt h2 t2 k (ys.map conv) with
            | ub => rfl
            | exn r => exact absurd h5 (hne _ _ _ _)
            | ok r3 =>
              obtain ⟨h3, t3⟩ := r3
              simp only [Out.bind]
              cases I.relocInto h3 o t3 0 0 k with
              | none => rfl
              | some r4 =>
                obtain ⟨h4, o4, t4⟩ := r4
                dsimp only
                cases I.relocInto h4 o4 t4 k (k + ys.length) (I.size o - k) with
                | none => rfl
                | some r5 =>
                  obtain ⟨h5, o5, t5⟩ := r5
                  dsimp only
                  cases I.setSize t5 (I.size o + ys.length) with
                  | none => rfl
                  | some t6 =>
                    dsimp only
                    cases I.takeOver h5 o5 t6 <;> rfl

theorem assignToEmptyFrom_eq (I : Impl V O) (hr : I.reservable = true) {conv : U → Item V} {d : Donor U} {ys : List U} (hd : d.Holds ys)
    (hn : ∀ y ∈ ys, (conv y).throws = false) (h : Heap V) (o : O) (al : Nat → Bool) :
    I.assignToEmptyFrom conv h o d al = Moved d (I.assignToEmpty h o (ys.map conv) al) := by
  have hs := hd.2.1
  have hne := fun h o pos r => copyAt_not_exn I (src := ys.map conv) (by
    intro it hit; obtain ⟨y, hy, rfl⟩ := List.mem_map.1 hit; exact hn y hy) h o pos r
  simp only [assignToEmptyFrom, assignToEmpty, hr, if_true, List.length_map, hs, copyAtFrom_eq I hd hn]
  by_cases h0 : I.size o = 0
  · simp only [h0, ne_eq, not_true_eq_false, if_false]
    cases I.capacity o with
    | none => rfl
    | some cap =>
      dsimp only
      by_cases hm : I.mx < ys.length
      · simp only [if_pos hm]; rfl
      · simp only [if_neg hm]
        cases (if cap < ys.length then I.replaceEmpty h o ys.length (al 0) else .ok (h, o)) with
        | ub => rfl
        | exn r => rfl
        | ok r =>
          obtain ⟨h1, o1⟩ := r
          dsimp only
          cases h1' : I.copyAt h1 o1 0 (ys.map conv) with
          | ub => rfl
          | exn r => exact absurd h1' (hne _ _ _ _)
          | ok r => exact finishFrom_eq I d _ _
  · simp only [ne_eq, h0, not_false_eq_true, if_true]; rfl

variable {I : Impl V O} {mn : Nat} {mkA : Bool} {L : Lawful I mn mkA}

/-- The values that are made from the source. -/
def convAll (conv : U → Item V) (ys : List U) : List V := ys.map fun y => (conv y).val

/-- How the operation ends: the target holds the elements of the specification, the source none of its elements, or all of them if the
operation throws. -/
def GoodFrom (L : Lawful I mn mkA) (d : Donor U) (ys : List U) (h : Heap V) (o : O) (r : Out (Donor U × Heap V × O)) (s : SV V × Bool) : Prop :=
  ∃ d' h' o', r = Out.of s.2 (d', h', o') ∧ d'.Holds (if s.2 then ys else []) ∧ L.Rep h' o' s.1.1 s.1.2 ∧ Frame (I.own o) h (I.own o') h'

theorem GoodFrom.of {d : Donor U} {ys : List U} (hd : d.Holds ys) {h : Heap V} {o : O} {r : Out (Heap V × O)} {s : SV V × Bool} (g : Good L h o r s) :
    GoodFrom L d ys h o (Moved d r) s := by
  obtain ⟨h', o', e, hrep, hfr, -⟩ := g
  obtain ⟨s1, b⟩ := s
  cases b
  · rw [e]; exact ⟨d.emptied, h', o', rfl, d.emptied_holds, hrep, hfr⟩
  · rw [e]; exact ⟨d, h', o', rfl, by simpa using hd, hrep, hfr⟩

/-- **C57** (without exceptions from the elements; with them `C57_exception_violated` applies): appending an rvalue container to any
lawful container that can grow, whatever their sizes and which allocations fail. The new elements come after the old ones in order, and
the source is empty; if an allocation fails both containers are as they were. -/
theorem C57_append_partial (hr : I.reservable = true) {d : Donor U} {ys : List U} (hd : d.Holds ys) {conv : U → Item V}
    (hn : ∀ y ∈ ys, (conv y).throws = false) {h : Heap V} {o : O} {xs : List V} {cap : Nat} (r : L.Rep h o xs cap) (hf : Fresh h)
    (al : Nat → Bool) :
    GoodFrom L d ys h o (I.appendFrom conv h o d al) (specInsert L.cfg (xs, cap) xs.length (convAll conv ys) true al) := by
  rw [appendFrom_eq I hr hd hn]
  have g := good_append (L := L) r hf (ys.map conv) al (by intro hr'; simp only [Lawful.cfg] at hr'; rw [hr] at hr'; cases hr')
  have e1 : (ys.map conv).map (·.val) = convAll conv ys := by simp [convAll]
  have e2 : (!(ys.map conv).any (·.throws)) = true := by
    simp only [Bool.not_eq_true', List.any_eq_false]
    intro it hit
    obtain ⟨y, hy, rfl⟩ := List.mem_map.1 hit
    simp [hn y hy]
  rw [e1, e2] at g
  exact GoodFrom.of hd g

/-- **C57** (without exceptions from the elements): inserting an rvalue container before any position of any lawful container, whatever
their sizes and which allocations fail. The old elements stay around the new ones in order, and the source is empty; if it throws both
containers are as they were. Inserting nothing before the end is `C25_insert_nothing_violated`. -/
theorem C57_insert_partial {d : Donor U} {ys : List U} (hd : d.Holds ys) {conv : U → Item V}
    (hn : ∀ y ∈ ys, (conv y).throws = false) {h : Heap V} {o : O} {xs : List V} {cap k : Nat} (r : L.Rep h o xs cap) (hf : Fresh h)
    (al : Nat → Bool) (hk : k ≤ xs.length) (hne : ys = [] → k = xs.length) :
    GoodFrom L d ys h o (I.insertFrom conv h o k d al) (specInsert L.cfg (xs, cap) k (convAll conv ys) true al) := by
  rw [insertFrom_eq I hd hn]
  have g := good_insert (L := L) r hf (ys.map conv) al hk (by intro e; exact hne (by simpa using e))
  have e1 : (ys.map conv).map (·.val) = convAll conv ys := by simp [convAll]
  have e2 : (!(ys.map conv).any (·.throws)) = true := by
    simp only [Bool.not_eq_true', List.any_eq_false]
    intro it hit
    obtain ⟨y, hy, rfl⟩ := List.mem_map.1 hit
    simp [hn y hy]
  rw [e1, e2] at g
  exact GoodFrom.of hd g

/-- **C57** (without exceptions from the elements): appending an rvalue container to a container that has room for its elements,
including a `static_vector`. -/
theorem C57_append_into_capacity_partial {d : Donor U} {ys : List U} (hd : d.Holds ys) {conv : U → Item V} (hn : ∀ y ∈ ys, (conv y).throws = false)
    {h : Heap V} {o : O} {xs : List V} {cap : Nat} (r : L.Rep h o xs cap) (hroom : xs.length + ys.length ≤ cap) :
    GoodFrom L d ys h o (I.appendIntoCapacityFrom conv h o d) ((xs ++ convAll conv ys, cap), false) := by
  have hn' : noThrow (ys.map conv) = true := by
    simp only [noThrow, Bool.not_eq_true', List.any_eq_false]
    intro it hit
    obtain ⟨y, hy, rfl⟩ := List.mem_map.1 hit
    simp [hn y hy]
  obtain ⟨h', o', e, v, ho, hfr⟩ := View.copyAt (pos := xs.length) (src := ys.map conv) r.view (by rw [List.length_map]; exact hroom)
    (fun j h1 _ => List.getElem?_eq_none h1)
  rw [hn'] at e v
  simp only [if_true] at v
  have e : I.copyAt h o xs.length (ys.map conv) = .ok (h', o') := e
  have hsz := r.1.2.2
  obtain ⟨o'', e3, v3, ho3⟩ := v.setSize (n' := xs.length + ys.length) hroom
  refine ⟨d.emptied, h', o'', ?_, d.emptied_holds, ?_, ?_⟩
  · simp only [appendIntoCapacityFrom, copyAtFrom_eq I hd hn, hsz, e, Out.bind, finishFrom, finish, hd.2.1, e3]
    rfl
  · refine rep_of v3 ?_ ?_ ?_
    · exact (written_cells xs _).trans (by simp [cells, convAll, vals, Function.comp_def])
    · simp [convAll]
    · simp [convAll]; omega
  · rw [ho3]; exact hfr

/-- **C57** (without exceptions from the elements): constructing a container that can grow from an rvalue container
(source/containers/assign_to_empty.cpp 65-71); `hal`: the allocation it may need succeeds (C27). -/
theorem C57_construct_partial (hr : I.reservable = true) {d : Donor U} {ys : List U} (hd : d.Holds ys) {conv : U → Item V}
    (hn : ∀ y ∈ ys, (conv y).throws = false) {h : Heap V} {o : O} {cap : Nat} (r : L.Rep h o [] cap) (hf : Fresh h) (al : Nat → Bool)
    (hmx : ys.length ≤ I.mx) (hal : cap < ys.length → al 0 = false) :
    GoodFrom L d ys h o (I.assignToEmptyFrom conv h o d al) ((convAll conv ys, max cap ys.length), false) := by
  rw [assignToEmptyFrom_eq I hr hd hn]
  have g := good_assignToEmpty (L := L) r hf (ys.map conv) al (fun _ => by rw [List.length_map]; exact ⟨hmx, hal⟩)
  have e2 : (ys.map conv).any (·.throws) = false := by
    rw [List.any_eq_false]
    intro it hit
    obtain ⟨y, hy, rfl⟩ := List.mem_map.1 hit
    simp [hn y hy]
  simp only [GOp.spec, Lawful.cfg, hr, Bool.not_true, Bool.false_and, Bool.false_eq_true, if_false, e2, List.map_map, List.length_map] at g
  exact GoodFrom.of hd g

/-! ## What happens to the target if elements throw -/

/-- Only the target. -/
def target (r : Out (Donor U × τ)) : Out τ := r.bind (fun r => .ok r.2) (·.2)

theorem uninitCopyFrom_target (conv : U → Item V) {d : Donor U} {ys : List U} (hd : d.Holds ys) (cap : Nat) (m : Cells V) (out : Nat) :
    target (uninitCopyFrom conv cap m out d) = uninitCopy cap m out (ys.map conv) := by
  have e := feed_construct conv cap ys m out
  rw [uninitCopyFrom, copyOrRelocateFrom_eq _ hd, e, uninitCopy]
  cases copyLoop cap m out (ys.map conv) with
  | ub => rfl
  | ok r => rfl
  | exn r =>
    simp only [Out.bind]
    cases destroyRange cap r.1 out (r.2 - out) <;> rfl

theorem copyAtFrom_target (I : Impl V O) (conv : U → Item V) {d : Donor U} {ys : List U} (hd : d.Holds ys) (h : Heap V) (o : O) (pos : Nat) :
    target (I.copyAtFrom conv h o pos d) = I.copyAt h o pos (ys.map conv) := by
  rw [copyAt, ← uninitCopyFrom_target conv hd]
  simp only [copyAtFrom]
  cases uninitCopyFrom conv (I.mem h o).1 (I.mem h o).2 pos d <;> rfl

theorem finishFrom_target (I : Impl V O) (d : Donor U) (r : Option (Heap V × O)) (n : Nat) : target (I.finishFrom d r n) = I.finish r n := by
  simp only [finishFrom]
  cases I.finish r n <;> rfl

theorem failTempFrom_target (I : Impl V O) (d : Donor U) (h : Heap V) (t o : O) : target (I.failTempFrom d h t o) = I.failTemp h t o := by
  simp only [failTempFrom]
  cases I.failTemp h t o <;> rfl

theorem appendFrom_target (I : Impl V O) (hr : I.reservable = true) (conv : U → Item V) {d : Donor U} {ys : List U} (hd : d.Holds ys)
    (h : Heap V) (o : O) (al : Nat → Bool) : target (I.appendFrom conv h o d al) = I.append h o (ys.map conv) al := by
  have hs := hd.2.1
  simp only [appendFrom, append, hr, if_true, List.length_map, hs, ← copyAtFrom_target I conv hd]
  cases I.capacity o with
  | none => rfl
  | some cap =>
    dsimp only
    by_cases hc : I.size o + ys.length ≤ cap
    · simp only [if_pos hc]
      cases I.copyAtFrom conv h o (I.size o) d with
      | ub => rfl
      | exn r => rfl
      | ok r => exact finishFrom_target I _ _ _
    · simp only [if_neg hc]
      cases I.new h (al 0) with
      | exn => rfl
      | ub => rfl
      | ok r1 =>
        dsimp only
        cases I.expForceReserve r1.1 r1.2 cap (I.size o + ys.length) (al 1) with
        | ub => rfl
        | exn r2 => exact failTempFrom_target I _ _ _ _
        | ok r2 =>
          dsimp only
          cases I.copyAtFrom conv r2.1 r2.2 (I.size o) d with
          | ub => rfl
          | exn r => exact failTempFrom_target I _ _ _ _
          | ok r3 =>
            simp only [target, Out.bind]
            cases I.relocInto r3.2.1 o r3.2.2 0 0 (I.size o) with
            | none => rfl
            | some r4 => exact finishFrom_target I _ _ _

theorem insertFrom_target (I : Impl V O) (conv : U → Item V) {d : Donor U} {ys : List U} (hd : d.Holds ys)
    (h : Heap V) (o : O) (k : Nat) (al : Nat → Bool) : target (I.insertFrom conv h o k d al) = I.insert h o k (ys.map conv) al := by
  have hs := hd.2.1
  simp only [insertFrom, Impl.insert]
  by_cases hk : I.size o < k
  · simp only [if_pos hk]; rfl
  simp only [if_neg hk, List.length_map, hs]
  cases I.capacity o with
  | none => rfl
  | some cap =>
    dsimp only
    by_cases hc : I.size o + ys.length ≤ cap
    · simp only [if_pos hc, insertInPlaceFrom, insertInPlace, ← copyAtFrom_target I conv hd, List.length_map, hs]
      cases (I.modify h o fun cap m => relocBack cap m (I.size o) (I.size o + ys.length) (I.size o - k)) with
      | none => rfl
      | some r1 =>
        dsimp only
        cases I.copyAtFrom conv r1.1 r1.2 k d with
        | ub => rfl
        | exn r =>
          simp only [target, Out.bind]
          cases (I.modify r.2.1 r.2.2 fun cap m => relocFwd cap m (k + ys.length) k (I.size o - k)) <;> rfl
        | ok r => exact finishFrom_target I _ _ _
    · simp only [if_neg hc]
      cases I.reservable with
      | false => rfl
      | true =>
        simp only [if_true, insertReallocFrom, insertRealloc, ← copyAtFrom_target I conv hd, List.length_map, hs]
        cases I.new h (al 0) with
        | exn => rfl
        | ub => rfl
        | ok r1 =>
          dsimp only
          cases I.expForceReserve r1.1 r1.2 cap (I.size o + ys.length) (al 1) with
          | ub => rfl
          | exn r2 => exact failTempFrom_target I _ _ _ _
          | ok r2 =>
            dsimp only
            cases I.copyAtFrom conv r2.1 r2.2 k d with
            | ub => rfl
            | exn r => exact failTempFrom_target I _ _ _ _
            | ok r3 =>
              simp only [target, Out.bind]
              cases I.relocInto r3.2.1 o r3.2.2 0 0 k with
              | none => rfl
              | some r4 =>
                dsimp only
                cases I.relocInto r4.1 r4.2.1 r4.2.2 k (k + ys.length) (I.size o - k) with
                | none => rfl
                | some r5 =>
                  dsimp only
                  cases I.setSize r5.2.2 (I.size o + ys.length) with
                  | none => rfl
                  | some t6 =>
                    dsimp only
                    cases I.takeOver r5.1 r5.2.1 t6 <;> rfl

/-- How an operation ends for the target. -/
def GoodTarget (L : Lawful I mn mkA) (h : Heap V) (o : O) (r : Out (Donor U × Heap V × O)) (s : SV V × Bool) : Prop :=
  ∃ d' h' o', r = Out.of s.2 (d', h', o') ∧ L.Rep h' o' s.1.1 s.1.2 ∧ Frame (I.own o) h (I.own o') h'

theorem GoodTarget.of {h : Heap V} {o : O} {r : Out (Donor U × Heap V × O)} {s : SV V × Bool} (g : Good L h o (target r) s) : GoodTarget L h o r s := by
  obtain ⟨h', o', e, hrep, hfr, -⟩ := g
  obtain ⟨s1, b⟩ := s
  cases r with
  | ub => cases b <;> cases e
  | ok x => obtain ⟨d', h2, o2⟩ := x; cases b <;> cases e; exact ⟨d', _, _, rfl, hrep, hfr⟩
  | exn x => obtain ⟨d', h2, o2⟩ := x; cases b <;> cases e; exact ⟨d', _, _, rfl, hrep, hfr⟩

/-- C57: an rvalue container is inserted into or appended to any lawful container, and making any of the elements may throw, as may the allocations. If it throws, the target
is as it was: the elements made are destroyed, those that were shifted are back in their place, and temporary storage is released. (What happens to the source
is `C57_exception_violated`.) -/
theorem C57_target {d : Donor U} {ys : List U} (hd : d.Holds ys) (conv : U → Item V) {h : Heap V} {o : O} {xs : List V} {cap : Nat} (r : L.Rep h o xs cap) (hf : Fresh h)
    (al : Nat → Bool) :
    (∀ k ≤ xs.length, (ys = [] → k = xs.length) →
      GoodTarget L h o (I.insertFrom conv h o k d al) (specInsert L.cfg (xs, cap) k (convAll conv ys) (!ys.any fun y => (conv y).throws) al)) ∧
    (I.reservable = true →
      GoodTarget L h o (I.appendFrom conv h o d al) (specInsert L.cfg (xs, cap) xs.length (convAll conv ys) (!ys.any fun y => (conv y).throws) al)) ∧
    ∀ k, (ys.any fun y => (conv y).throws) = true → (specInsert L.cfg (xs, cap) k (convAll conv ys) (!ys.any fun y => (conv y).throws) al) = ((xs, cap), true) := by
  have e1 : (ys.map conv).map (·.val) = convAll conv ys := by simp [convAll]
  have e2 : (ys.map conv).any (·.throws) = ys.any fun y => (conv y).throws := by rw [List.any_map]; rfl
  refine ⟨fun k hk hne => ?_, fun hr => ?_, fun k ht => ?_⟩
  · apply GoodTarget.of
    rw [insertFrom_target I conv hd]
    have g := good_insert (L := L) r hf (ys.map conv) al hk (by intro e; exact hne (by simpa using e))
    rw [e1, e2] at g
    exact g
  · apply GoodTarget.of
    rw [appendFrom_target I hr conv hd]
    have g := good_append (L := L) r hf (ys.map conv) al (by intro hr'; simp only [Lawful.cfg] at hr'; rw [hr] at hr'; cases hr')
    rw [e1, e2] at g
    exact g
  · simp [specInsert, ht]

/-- C57: `append_into_capacity` of an rvalue container, any of whose elements may throw: the target is as it was, or has all elements. -/
theorem C57_append_into_capacity_target {d : Donor U} {ys : List U} (hd : d.Holds ys) (conv : U → Item V) {h : Heap V} {o : O} {xs : List V} {cap : Nat} (r : L.Rep h o xs cap)
    (hroom : xs.length + ys.length ≤ cap) :
    GoodTarget L h o (I.appendIntoCapacityFrom conv h o d) (if ys.any (fun y => (conv y).throws) then ((xs, cap), true) else ((xs ++ convAll conv ys, cap), false)) := by
  by_cases ht : (ys.any fun y => (conv y).throws) = true
  · rw [if_pos ht]
    have hn' : noThrow (ys.map conv) = false := by
      simp only [noThrow, List.any_map, Bool.not_eq_false']
      exact ht
    obtain ⟨h', o', e, v, ho, hfr⟩ := View.copyAt (pos := xs.length) (src := ys.map conv) r.view (by rw [List.length_map]; exact hroom)
      (fun j h1 _ => List.getElem?_eq_none h1)
    rw [hn'] at e v
    have hsz := r.1.2.2
    rw [← copyAtFrom_target I conv hd] at e
    cases hc : I.copyAtFrom conv h o xs.length d with
    | ub => rw [hc] at e; cases e
    | ok x => rw [hc] at e; cases e
    | exn x =>
      rw [hc] at e
      obtain ⟨d', h2, o2⟩ := x
      cases e
      refine ⟨d', h', o', by simp only [appendIntoCapacityFrom, hsz, hc]; rfl, rep_of v rfl rfl (Nat.le_trans (Nat.le_add_right _ _) hroom), hfr⟩
  · have hn : ∀ y ∈ ys, (conv y).throws = false := by
      intro y hy
      have := List.any_eq_false.1 (Bool.eq_false_iff.2 ht) y hy
      simpa using this
    rw [if_neg ht]
    obtain ⟨d', h', o', e, _, hrep, hfr⟩ := C57_append_into_capacity_partial hd hn r hroom
    exact ⟨d', h', o', e, hrep, hfr⟩

theorem assignToEmptyFrom_target (I : Impl V O) (hr : I.reservable = true) (conv : U → Item V) {d : Donor U} {ys : List U} (hd : d.Holds ys) (h : Heap V) (o : O)
    (al : Nat → Bool) : target (I.assignToEmptyFrom conv h o d al) = I.assignToEmpty h o (ys.map conv) al := by
  have hs := hd.2.1
  simp only [assignToEmptyFrom, assignToEmpty, hr, if_true, List.length_map, hs, ← copyAtFrom_target I conv hd]
  by_cases h0 : I.size o = 0
  · simp only [h0, ne_eq, not_true_eq_false, if_false]
    cases I.capacity o with
    | none => rfl
    | some cap =>
      dsimp only
      by_cases hm : I.mx < ys.length
      · simp only [if_pos hm]; rfl
      · simp only [if_neg hm]
        cases (if cap < ys.length then I.replaceEmpty h o ys.length (al 0) else .ok (h, o)) with
        | ub => rfl
        | exn r => rfl
        | ok r =>
          obtain ⟨h1, o1⟩ := r
          dsimp only
          cases I.copyAtFrom conv h1 o1 0 d with
          | ub => rfl
          | exn r => rfl
          | ok r => exact finishFrom_target I _ _ _
  · simp only [ne_eq, h0, not_false_eq_true, if_true]; rfl

/-- C57: constructing a container that can grow from an rvalue container any of whose elements may throw: it has all elements, or the exception leaves it empty (with
storage for them, which its destructor releases). -/
theorem C57_construct_target (hr : I.reservable = true) {d : Donor U} {ys : List U} (hd : d.Holds ys) (conv : U → Item V) {h : Heap V} {o : O} {cap : Nat}
    (r : L.Rep h o [] cap) (hf : Fresh h) (al : Nat → Bool) (hmx : ys.length ≤ I.mx) (hal : cap < ys.length → al 0 = false) :
    GoodTarget L h o (I.assignToEmptyFrom conv h o d al)
      (if ys.any (fun y => (conv y).throws) then (([], max cap ys.length), true) else ((convAll conv ys, max cap ys.length), false)) := by
  apply GoodTarget.of
  rw [assignToEmptyFrom_target I hr conv hd]
  have g := good_assignToEmpty (L := L) r hf (ys.map conv) al (fun _ => by rw [List.length_map]; exact ⟨hmx, hal⟩)
  have e2 : (ys.map conv).any (·.throws) = ys.any fun y => (conv y).throws := by rw [List.any_map]; rfl
  simp only [GOp.spec, Lawful.cfg, hr, Bool.not_true, Bool.false_and, Bool.false_eq_true, if_false, e2, List.map_map, List.length_map] at g
  exact g

example : (⟨3, fun k => [10, 20, 30][k]?, 3⟩ : Donor Nat).Holds [10, 20, 30] ∧ [10, 20, 30].any (fun y => ((fun u => ⟨u, u == 20⟩ : Nat → Item Nat) y).throws) = true ∧
    (Vec.lawful 0 100 (by decide) : Lawful (vec Nat 0 100) 0 _).Rep ⟨fun _ => none, 0⟩ { ptr := none, cap := 0, size := 0 } [] 0 :=
  ⟨⟨rfl, rfl, by decide⟩, by decide, ⟨Or.inl ⟨rfl, rfl, rfl⟩, rfl, rfl⟩, by decide⟩

/-- C57 fails for a target whose capacity always suffices, such as `static_vector<T, N>` from a `static_vector<T, M> &&` with `M ≤ N`:
the size of the source is read after it was set to zero. For every source that is not empty the new container says that it is empty,
its slots hold the elements, and the destructor never destroys them. -/
theorem C57_construct_static_violated {N : Nat} {d : Donor V} {ys : List V} (hd : d.Holds ys) (hne : ys ≠ []) (hfit : ys.length ≤ N) (h : Heap V) :
    ∃ d' o', (stat V N).assignToEmptyIntoCapacityFrom (fun v => ⟨v, false⟩) h ⟨fun _ => none, 0⟩ d = .ok (d', h, o') ∧
      o'.size = 0 ∧ o'.cell = (fun k => ys[k]?) ∧ (stat V N).dtor h o' = none := by
  have hn : ∀ y ∈ ys, ((fun v => (⟨v, false⟩ : Item V)) y).throws = false := fun _ _ => rfl
  have hnt : noThrow (ys.map fun v => (⟨v, false⟩ : Item V)) = true := by
    simp only [noThrow, Bool.not_eq_true', List.any_eq_false]
    intro it hit
    obtain ⟨y, hy, rfl⟩ := List.mem_map.1 hit
    simp
  have e : (stat V N).copyAt h ⟨fun _ => none, 0⟩ 0 (ys.map fun v => (⟨v, false⟩ : Item V)) = .ok (h, ⟨fun k => ys[k]?, 0⟩) := by
    have := uninitCopy_ok (cap := N) (m := fun _ => none) (out := 0) hnt (by rw [List.length_map]; omega) (fun _ _ _ => rfl)
    simp only [copyAt, stat, this]
    rw [written_none]
    simp only [vals, List.map_map, Function.comp_def, List.map_id']
    rfl
  refine ⟨d.emptied, ⟨fun k => ys[k]?, 0⟩, ?_, rfl, rfl, ?_⟩
  · simp only [assignToEmptyIntoCapacityFrom, copyAtFrom_eq _ hd hn, e, Out.bind]
    simp [stat, finishFrom, finish, Donor.emptied]
  · have hpos : 0 < ys.length := List.length_pos_iff.2 hne
    simp only [stat, Stat.dtor, destroyRange]
    rw [if_neg]
    intro hall
    have := hall 0 (by omega)
    simp [hpos] at this

example : (⟨3, fun k => [1, 2, 3][k]?, 3⟩ : Donor Nat).Holds [1, 2, 3] ∧ [1, 2, 3] ≠ [] ∧ [1, 2, 3].length ≤ 5 :=
  ⟨⟨rfl, rfl, by decide⟩, by decide, by decide⟩

/-- A vector of two elements and an rvalue container of three: the hypotheses of the theorems above. -/
example : (vec Nat 0 100).reservable = true ∧ (⟨3, fun k => [1, 2, 3][k]?, 3⟩ : Donor Nat).Holds [1, 2, 3] ∧
    Fresh (⟨upd (fun _ => none) 0 (some ⟨4, cells [7, 8]⟩), 1⟩ : Heap Nat) ∧
    (Vec.lawful 0 100 (by decide)).Rep ⟨upd (fun _ => none) 0 (some ⟨4, cells [7, 8]⟩), 1⟩ { ptr := some 0, cap := 4, size := 2 } [7, 8] 4 := by
  refine ⟨rfl, ⟨rfl, rfl, by decide⟩, ?_, ?_⟩
  · intro b hb
    have : 1 ≤ b := hb
    simp only []
    rw [upd_other _ _ (by omega)]
  · exact rep_of ⟨.inr ⟨0, ⟨4, cells [7, 8]⟩, rfl, rfl, rfl, by decide, by decide⟩, rfl, rfl⟩ rfl rfl (by decide)

end Verif.Containers
