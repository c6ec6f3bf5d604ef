import Verif.Algo.Overlap

/-!
# `concatenate` into a container of another library (property C49)

`algorithms/concatenate.cpp` 36-148 for a result such as `std::vector<int>` or `std::string`: no `set_size`, elements that are trivially default
constructible and trivially copyable (`can_reuse_storage_without_set_size`, lines 88-92), so that copying an element does not throw and an element may
be copied over another one. The container is an array of the elements `elems` with room for `cap`; what `capacity`, `resize`, `reserve`, `push_back`,
`append_range` and `insert` at the end do is what the standard says, up to the new capacity, which is arbitrary. The arguments are distinct objects.
-/

namespace Verif.Algo

variable {α : Type}

/-- A container of another library: the memory of its array, the number of elements and the capacity. -/
structure Foreign (α : Type) where
  mem : Mem α
  size : Nat
  cap : Nat

namespace Foreign

/-- The container holds `xs`. -/
structure Is (f : Foreign α) (xs : List α) : Prop where
  seg : f.mem.Seg 0 xs
  size : f.size = xs.length
  cap : xs.length ≤ f.cap

/-- `resize(n)` of the standard for growing: new elements are value-initialised. `grow` is the new capacity if the old one is too small. -/
def resize (dflt : α) (grow : Nat → Nat) (f : Foreign α) (n : Nat) : Foreign α :=
  { mem := fun x => if f.size ≤ x ∧ x < n then some dflt else f.mem x, size := n, cap := if n ≤ f.cap then f.cap else max n (grow n) }

/-- `push_back(v)` of the standard. -/
def pushBack (grow : Nat → Nat) (f : Foreign α) (v : α) : Foreign α :=
  { mem := upd f.mem f.size (some v), size := f.size + 1, cap := if f.size + 1 ≤ f.cap then f.cap else max (f.size + 1) (grow (f.size + 1)) }

/-- `reserve(n)` of the standard. -/
def reserve (f : Foreign α) (n : Nat) : Foreign α := { f with cap := max f.cap n }

/-- `legacy_append` (`containers/legacy_append.cpp` 46-79): `append_range`, `insert` at the end or `push_back` of every element. By the standard all
three add the elements at the end; the element-wise version is the one that is written out in the repository (lines 73-77), after
`maybe_reserve` (lines 29-39, `force` is the capacity that `exponential_force_reserve` asks for). -/
def legacyAppend (grow : Nat → Nat) (force : Nat → Nat → Nat) (f : Foreign α) (src : List α) : Foreign α :=
  let f := if f.size + src.length > f.cap then f.reserve (max (f.size + src.length) (force f.cap (f.size + src.length))) else f
  src.foldl (pushBack grow) f

/-- `uninitialized_copy_no_overlap(range, it)` over elements that exist (`algorithms/uninitialized.cpp` 77-93). Writing outside of the elements of
the container is undefined. -/
def copyOver (f : Foreign α) (it : Nat) : List α → Option (Foreign α)
  | [] => some f
  | v :: vs => if it < f.size then copyOver { f with mem := upd f.mem it (some v) } (it + 1) vs else none

/-- `algorithms/concatenate.cpp` 61-73 `reusable_concatenate_container`: the index of the first rvalue of the result type (`some` capacity) whose capacity suffices, and the
number of elements before it. -/
def reusable (total : Nat) : List (List α × Option Nat) → Nat → Nat → Option (Nat × Nat)
  | [], _, _ => none
  | (xs, c) :: rest, i, before =>
    match c with
    | some cap => if total ≤ cap then some (i, before) else reusable total rest (i + 1) (before + xs.length)
    | none => reusable total rest (i + 1) (before + xs.length)

/-- `algorithms/concatenate.cpp` 107-117 `move_existing_data_to_final_position`. -/
def moveExisting (dflt : α) (grow : Nat → Nat) (f : Foreign α) (before : Nat) : Option (Foreign α) :=
  let g := f.resize dflt grow (f.size + before)
  match g.mem.copyBackward f.size (f.size + before) f.size with
  | none => none
  | some (m, _) => some { g with mem := m }

/-- `algorithms/concatenate.cpp` 42-53 `concatenate_prepend_append`, where the reused argument is number `r`. -/
def prependAppend (grow : Nat → Nat) (force : Nat → Nat → Nat) (r : Nat) : List (List α) → Nat → Nat → Foreign α → Option (Foreign α)
  | [], _, _, _ => none
  | xs :: rest, i, it, f =>
    if i = r then some (rest.foldl (legacyAppend grow force) f)
    else
      match f.copyOver it xs with
      | none => none
      | some f => prependAppend grow force r rest (i + 1) (it + xs.length) f

/-- `algorithms/concatenate.cpp` 122-148 `concatenate`. An argument is its elements, and the memory with the capacity if it is an rvalue of the result type. -/
def concatenate (dflt : α) (grow : Nat → Nat) (force : Nat → Nat → Nat) (args : List (List α × Option (Mem α × Nat))) : Option (Foreign α) :=
  let total := (args.map fun a => a.1.length).sum
  match reusable total (args.map fun a => (a.1, a.2.map (·.2))) 0 0 with
  | some (r, before) =>
    match args[r]? with
    | some (xs, some (m, cap)) =>
      let f : Foreign α := { mem := m, size := xs.length, cap := cap }
      match (if before ≠ 0 then f.moveExisting dflt grow before else some f) with
      | none => none
      | some f => prependAppend grow force r (args.map (·.1)) 0 0 f
    | _ => none
  | none =>
    some ((args.map (·.1)).foldl (legacyAppend grow force) (reserve { mem := fun _ => none, size := 0, cap := 0 } total))

theorem Is.pushBack {f : Foreign α} {xs : List α} (h : f.Is xs) (grow : Nat → Nat) (v : α) : (f.pushBack grow v).Is (xs ++ [v]) := by
  refine ⟨?_, by simp [Foreign.pushBack, h.size], ?_⟩
  · rw [Mem.seg_append]
    refine ⟨fun i hi => ?_, ?_⟩
    · show upd f.mem f.size (some v) (0 + i) = _
      rw [upd_other _ _ (by have := h.size; omega)]; exact h.seg i hi
    · rw [Mem.seg_cons]
      refine ⟨?_, Mem.seg_nil _ _⟩
      show upd f.mem f.size (some v) (0 + xs.length) = _
      rw [h.size, Nat.zero_add, upd_same]
  · have := h.size
    simp only [Foreign.pushBack, List.length_append, List.length_singleton]
    split <;> omega

theorem Is.reserve {f : Foreign α} {xs : List α} (h : f.Is xs) (n : Nat) : (f.reserve n).Is xs :=
  ⟨h.seg, h.size, Nat.le_trans h.cap (Nat.le_max_left _ _)⟩

theorem Is.pushBacks {grow : Nat → Nat} : ∀ {ys xs : List α} {f : Foreign α}, f.Is xs → (ys.foldl (Foreign.pushBack grow) f).Is (xs ++ ys)
  | [], xs, f, h => by simpa using h
  | y :: ys, xs, f, h => by
    have := Is.pushBacks (grow := grow) (ys := ys) (h.pushBack grow y)
    rwa [List.append_assoc] at this

/-- **C49** `legacy_append` adds the elements at the end. -/
theorem C49_legacy_append {f : Foreign α} {xs : List α} (h : f.Is xs) (grow : Nat → Nat) (force : Nat → Nat → Nat) (ys : List α) :
    (f.legacyAppend grow force ys).Is (xs ++ ys) := by
  rw [legacyAppend]
  apply Is.pushBacks
  split
  · exact h.reserve _
  · exact h

/-- `push_back` of an element for which there is room does not change the capacity. -/
theorem pushBacks_cap {grow : Nat → Nat} : ∀ {ys : List α} {f : Foreign α}, f.size + ys.length ≤ f.cap →
    (ys.foldl (Foreign.pushBack grow) f).cap = f.cap
  | [], f, _ => rfl
  | y :: ys, f, h => by
    simp only [List.length_cons] at h
    have e : (f.pushBack grow y).cap = f.cap := by
      rw [Foreign.pushBack]; exact if_pos (by omega)
    rw [List.foldl_cons, pushBacks_cap, e]
    rw [e]; show f.size + 1 + _ ≤ _; omega

/-- **C49** `legacy_append` reallocates at most once: after it reserved, the capacity does not change any more. -/
theorem C49_legacy_append_once (f : Foreign α) (grow : Nat → Nat) (force : Nat → Nat → Nat) (ys : List α) :
    (f.legacyAppend grow force ys).cap =
      if f.size + ys.length > f.cap then max f.cap (max (f.size + ys.length) (force f.cap (f.size + ys.length))) else f.cap := by
  rw [legacyAppend]
  by_cases h : f.size + ys.length > f.cap
  · simp only [if_pos h]
    rw [pushBacks_cap]
    · rfl
    · show f.size + ys.length ≤ max f.cap (max _ _); omega
  · simp only [if_neg h]
    exact pushBacks_cap (by omega)

theorem Is.appends {grow : Nat → Nat} {force : Nat → Nat → Nat} : ∀ {yss : List (List α)} {xs : List α} {f : Foreign α}, f.Is xs →
    (yss.foldl (Foreign.legacyAppend grow force) f).Is (xs ++ yss.flatten)
  | [], xs, f, h => by simpa using h
  | y :: yss, xs, f, h => by
    have := Is.appends (grow := grow) (force := force) (yss := yss) (C49_legacy_append h grow force y)
    rwa [List.append_assoc] at this

theorem copyOver_is : ∀ {ys : List α} {f : Foreign α} {pre old post : List α}, f.Is (pre ++ old ++ post) → old.length = ys.length →
    ∃ g, f.copyOver pre.length ys = some g ∧ g.Is (pre ++ ys ++ post)
  | [], f, pre, old, post, h, hl => by
    have : old = [] := List.length_eq_zero_iff.1 hl
    subst this
    exact ⟨f, rfl, h⟩
  | y :: ys, f, pre, o :: old, post, h, hl => by
    have hs := h.size
    simp only [List.length_append, List.length_cons] at hs
    have h' : Foreign.Is { f with mem := upd f.mem pre.length (some y) } ((pre ++ [y]) ++ old ++ post) := by
      refine ⟨?_, by simp; omega, ?_⟩
      · have e := h.seg
        rw [List.append_assoc, Mem.seg_append, List.cons_append, Mem.seg_cons] at e
        rw [List.append_assoc, List.append_assoc, Mem.seg_append, List.singleton_append, Mem.seg_cons]
        refine ⟨fun i hi => ?_, ?_, fun i hi => ?_⟩
        · show upd f.mem pre.length (some y) (0 + i) = _
          rw [upd_other _ _ (by omega)]; exact e.1 i hi
        · show upd f.mem pre.length (some y) (0 + pre.length) = _
          rw [Nat.zero_add, upd_same]
        · show upd f.mem pre.length (some y) (0 + pre.length + 1 + i) = _
          rw [upd_other _ _ (by omega)]; exact e.2.2 i hi
      · have := h.cap
        simp only [List.length_append, List.length_cons, List.length_nil] at this ⊢
        omega
    obtain ⟨g, e, hg⟩ := copyOver_is (ys := ys) h' (by simpa using hl)
    refine ⟨g, ?_, by simpa using hg⟩
    rw [copyOver, if_pos (by omega)]
    simpa using e

theorem moveExisting_is {f : Foreign α} {xs : List α} (h : f.Is xs) (dflt : α) (grow : Nat → Nat) {before : Nat} (hc : xs.length + before ≤ f.cap) :
    ∃ g junk, f.moveExisting dflt grow before = some g ∧ g.Is (junk ++ xs) ∧ junk.length = before := by
  have hs := h.size
  have hseg : (f.resize dflt grow (f.size + before)).mem.Seg 0 xs := fun i hi => by
    show (if f.size ≤ 0 + i ∧ 0 + i < f.size + before then some dflt else f.mem (0 + i)) = _
    rw [if_neg (by omega)]; exact h.seg i hi
  have hlive : ∀ x, x < xs.length + before → ((f.resize dflt grow (f.size + before)).mem x).isSome := by
    intro x hx
    show (if f.size ≤ x ∧ x < f.size + before then some dflt else f.mem x).isSome
    split
    · rfl
    · have := h.seg x (by omega)
      rw [Nat.zero_add] at this
      rw [this]; rfl
  obtain ⟨m, e, hm, hf⟩ := Mem.C89_copy_backward hseg (d := before) (fun i hi => hlive _ (by omega)) (Or.inl (Nat.zero_le _))
  have hl : ∀ x, x < before → (m x).isSome := by
    intro x hx
    rw [hf x (by omega)]
    exact hlive x (by omega)
  refine ⟨{ f.resize dflt grow (f.size + before) with mem := m }, List.ofFn fun i : Fin before => (m i).get (hl i i.2), ?_, ⟨?_, ?_, ?_⟩, by simp⟩
  · rw [moveExisting]
    simp only
    rw [Nat.zero_add, ← hs] at e
    rw [Nat.add_comm before] at e
    rw [e]
  · rw [Mem.seg_append]
    refine ⟨fun i hi => ?_, by simpa using hm⟩
    simp
  · simp [Foreign.resize, hs, Nat.add_comm]
  · simp only [Foreign.resize, List.length_append, List.length_ofFn]
    rw [if_pos (by omega)]
    omega

theorem prependAppend_is {grow : Nat → Nat} {force : Nat → Nat → Nat} {xs : List α} {post : List (List α)} :
    ∀ {pre : List (List α)} {i : Nat} {done junk : List α} {f : Foreign α}, f.Is (done ++ junk ++ xs) → junk.length = pre.flatten.length →
    ∃ g, prependAppend grow force (i + pre.length) (pre ++ xs :: post) i done.length f = some g ∧ g.Is (done ++ (pre ++ xs :: post).flatten)
  | [], i, done, junk, f, h, hl => by
    have : junk = [] := List.length_eq_zero_iff.1 (by simpa using hl)
    subst this
    refine ⟨_, by rw [List.nil_append, prependAppend, if_pos (by simp)], ?_⟩
    have := Is.appends (grow := grow) (force := force) (yss := post) h
    simpa using this
  | p :: pre, i, done, junk, f, h, hl => by
    have hj : (junk.take p.length).length = p.length := by
      simp only [List.flatten_cons, List.length_append] at hl
      simp; omega
    have h' : f.Is (done ++ junk.take p.length ++ (junk.drop p.length ++ xs)) := by
      have e : done ++ junk ++ xs = done ++ junk.take p.length ++ (junk.drop p.length ++ xs) := by
        rw [List.append_assoc, List.append_assoc, ← List.append_assoc (junk.take _), List.take_append_drop]
      rwa [← e]
    obtain ⟨g, e, hg⟩ := copyOver_is (ys := p) h' hj
    obtain ⟨k, e2, hk⟩ := prependAppend_is (pre := pre) (i := i + 1) (done := done ++ p) (junk := junk.drop p.length) (f := g)
      (by simpa using hg) (by simp only [List.flatten_cons, List.length_append, List.length_drop] at hl ⊢; omega)
    refine ⟨k, ?_, by simpa using hk⟩
    rw [List.cons_append, prependAppend, if_neg (by simp)]
    simp only [e]
    rw [List.length_cons, show i + (pre.length + 1) = i + 1 + pre.length by omega]
    rw [List.length_append] at e2
    exact e2

theorem reusable_eq {total : Nat} : ∀ {args : List (List α × Option Nat)} {i before r b : Nat}, reusable total args i before = some (r, b) →
    ∃ pre xs cap post, args = pre ++ (xs, some cap) :: post ∧ r = i + pre.length ∧ b = before + (pre.map (·.1)).flatten.length ∧ total ≤ cap
  | [], i, before, r, b, h => by simp [reusable] at h
  | (xs, c) :: rest, i, before, r, b, h => by
    have step : reusable total rest (i + 1) (before + xs.length) = some (r, b) →
        ∃ pre ys cap post, (xs, c) :: rest = pre ++ (ys, some cap) :: post ∧ r = i + pre.length ∧
          b = before + (pre.map (·.1)).flatten.length ∧ total ≤ cap := by
      intro h
      obtain ⟨pre, ys, cap, post, rfl, e1, e2, e3⟩ := reusable_eq h
      exact ⟨(xs, c) :: pre, ys, cap, post, rfl, by simp; omega, by simp at e2 ⊢; omega, e3⟩
    cases c with
    | none => exact step h
    | some cap =>
      rw [reusable] at h
      split at h
      · rename_i hc
        simp only [Option.some.injEq, Prod.mk.injEq] at h
        exact ⟨[], xs, cap, rest, rfl, by simp [h.1], by simp [h.2], hc⟩
      · exact step h

/-- **C49** `concatenate` into a container of another library: the result holds the elements of all arguments in their order, whether the storage of
an argument is reused or not. -/
theorem C49_concatenate_other_library (dflt : α) (grow : Nat → Nat) (force : Nat → Nat → Nat) {args : List (List α × Option (Mem α × Nat))}
    (hargs : ∀ a ∈ args, ∀ p, a.2 = some p → Is { mem := p.1, size := a.1.length, cap := p.2 } a.1) :
    ∃ g, concatenate dflt grow force args = some g ∧ g.Is (args.map (·.1)).flatten := by
  have hsum : (args.map fun a => a.1.length).sum = (args.map (·.1)).flatten.length := by
    rw [List.length_flatten, List.map_map]; rfl
  rw [concatenate]
  simp only
  cases hre : reusable (args.map fun a => a.1.length).sum (args.map fun a => (a.1, a.2.map (·.2))) 0 0 with
  | none =>
    refine ⟨_, rfl, ?_⟩
    have h0 : Is ({ mem := fun _ => none, size := 0, cap := 0 } : Foreign α) [] := ⟨Mem.seg_nil _ _, rfl, by simp⟩
    have := Is.appends (grow := grow) (force := force) (yss := args.map (·.1)) (h0.reserve (args.map fun a => a.1.length).sum)
    simpa using this
  | some rb =>
    obtain ⟨r, b⟩ := rb
    obtain ⟨pre', xs, cap, post', e, hr, hb, hcap⟩ := reusable_eq hre
    obtain ⟨pre, rest, rfl, rfl, e2⟩ := List.map_eq_append_iff.1 e
    obtain ⟨a, post, rfl, e3, rfl⟩ := List.map_eq_cons_iff.1 e2
    obtain ⟨as, ap⟩ := a
    cases ap with
    | none => simp at e3
    | some p =>
      obtain ⟨m, c⟩ := p
      simp only [Option.map_some, Prod.mk.injEq, Option.some.injEq] at e3
      obtain ⟨rfl, rfl⟩ := e3
      have hr' : r = pre.length := by simpa using hr
      have hb' : b = (pre.map (·.1)).flatten.length := by
        rw [hb, List.map_map, Nat.zero_add]; rfl
      subst hr'
      have hget : (pre ++ (as, some (m, c)) :: post)[pre.length]? = some (as, some (m, c)) := by simp
      simp only [hget]
      have hIs := hargs (as, some (m, c)) (by simp) _ rfl
      rw [hsum, List.map_append, List.map_cons, List.flatten_append, List.flatten_cons, List.length_append, List.length_append] at hcap
      have fin : ∀ (f : Foreign α) (junk : List α), f.Is (junk ++ as) → junk.length = (pre.map (·.1)).flatten.length →
          ∃ g, prependAppend grow force pre.length ((pre ++ (as, some (m, c)) :: post).map (·.1)) 0 0 f = some g ∧
            g.Is ((pre ++ (as, some (m, c)) :: post).map (·.1)).flatten := by
        intro f junk h hl
        obtain ⟨g, e, hg⟩ := prependAppend_is (grow := grow) (force := force) (xs := as) (post := post.map (·.1)) (pre := pre.map (·.1)) (i := 0)
          (done := []) (junk := junk) (f := f) h hl
        refine ⟨g, ?_, by simpa using hg⟩
        simpa using e
      by_cases hz : b = 0
      · rw [if_neg (by simpa using hz)]
        exact fin _ [] hIs (by rw [← hb', hz]; rfl)
      · rw [if_pos hz]
        obtain ⟨g, junk, e, hg, hj⟩ := moveExisting_is hIs dflt grow (before := b) (show _ ≤ c by rw [hb']; omega)
        simp only [e]
        exact fin g junk hg (by rw [hj, hb'])

/-! ## Example: the second argument has room for everything -/

/-- `7 8` with room for six elements. -/
def roomy : Mem Nat × Nat := (fun x => [7, 8][x]?, 6)

example : Is { mem := roomy.1, size := 2, cap := roomy.2 } [7, 8] :=
  ⟨fun i hi => by match i, hi with | 0, _ => rfl | 1, _ => rfl, rfl, by decide⟩

example : ∃ g, concatenate 0 id (fun _ => id) [([1, 2, 3], none), ([7, 8], some roomy), ([9], none)] = some g ∧
    (List.range 7).map g.mem = [some 1, some 2, some 3, some 7, some 8, some 9, none] ∧ g.size = 6 ∧ g.cap = 6 := ⟨_, rfl, rfl, rfl, rfl⟩

/-- Nothing has room. -/
example : ∃ g, concatenate 0 id (fun _ => id) [([1, 2, 3, 4], none), ([7, 8], some roomy), ([9], none)] = some g ∧
    (List.range 8).map g.mem = [some 1, some 2, some 3, some 4, some 7, some 8, some 9, none] := ⟨_, rfl, rfl⟩

end Foreign

end Verif.Algo
