import Verif.Containers.FromView
import Verif.Views.ThrowingAlgo

/-!
# Containers filled from views whose functions throw

`append` and `insert` of a view that calls functions of the user (`filter`, `transform`, ...). If the view does not know its size, it is gone through twice: once to count
the elements and once to copy them. The functions keep a state, and they can throw in either pass, at any call: also in the second pass where they did not in the first
one, and also after the last element has been copied.
-/

namespace Verif.Containers

open Verif Verif.Views Verif.Views.Calling Lawful

variable {V O τ σ ρ : Type} {I : Impl V O} {mn : Nat} {mkA : Bool} {L : Lawful I mn mkA}

/-! ## Model -/

/-- `linear_size` (source/containers/linear_size.cpp 28-39) with `distance` (source/containers/algorithms/distance.cpp 19-30): a size that the view knows, or a pass
through the view. -/
def viewSizeC (D : Nat) (p : PipeC τ ρ) (size? : Option Nat) : Act τ Nat :=
  match size? with
  | some n => .pure n
  | none => onView D p fun B => distanceC B.ops (D + 1) B.first 0

/-- source/containers/algorithms/copy_or_relocate_from.cpp 46-48 with source/containers/algorithms/uninitialized.cpp 45-48 `construct_at_output`: the loop of
`uninitialized_copy` over a view that calls functions, as `copyLoopR`. Simplification: the state of the functions after the loop is not part of the result, since
nothing is called any more. -/
def copyLoopC (r : RngC τ σ ρ) (conv : ρ → Item V) (cap : Nat) : Nat → Cells V → Nat → σ → τ → Out (Cells V × Nat)
  | 0, _, _, _, _ => .ub
  | f + 1, m, out, s, t =>
    match r.atEnd s t with
    | .ub => .ub
    | .exn _ => .exn (m, out)
    | .ok true _ => .ok (m, out)
    | .ok false t =>
      match r.deref s t with
      | .ub => .ub
      | .exn _ => .exn (m, out)
      | .ok x t =>
        if (conv x).throws then .exn (m, out)
        else
          match construct cap m out (conv x).val with
          | none => .ub
          | some m' =>
            match r.next s t with
            | .ub => .ub
            | .exn _ => .exn (m', out + 1)
            | .ok s' t => copyLoopC r conv cap f m' (out + 1) s' t

/-- The call of `begin` (source/containers/algorithms/copy_or_relocate_from.cpp 44-46) and the loop. -/
def copyViewC (D : Nat) (p : PipeC τ ρ) (conv : ρ → Item V) (cap : Nat) (m : Cells V) (out : Nat) (t : τ) : Out (Cells V × Nat) :=
  match p.build D t with
  | .ub => .ub
  | .exn _ => .exn (m, out)
  | .ok B t => copyLoopC B.ops conv cap (cap - out + 1) m out B.first t

/-- source/containers/algorithms/uninitialized.cpp 54-63 `uninitialized_copy` of a view. -/
def uninitCopyC (D : Nat) (p : PipeC τ ρ) (conv : ρ → Item V) (cap : Nat) (m : Cells V) (out : Nat) (t : τ) : Out (Cells V) :=
  match copyViewC D p conv cap m out t with
  | .ok (m', _) => .ok m'
  | .exn (m', out') =>
    match destroyRange cap m' out (out' - out) with
    | some m'' => .exn m''
    | none => .ub
  | .ub => .ub

/-- `counted_iterator` (source/containers/take.cpp 60-145), compared with `counted_sentinel` that throws on extra elements (source/containers/take.cpp 86-99), as `countedThrow`. -/
def countedThrowC (r : RngC τ σ ρ) : RngC τ (σ × Nat) ρ where
  atEnd s := (r.atEnd s.1).bind fun b => if b then .pure true else if s.2 = 0 then fun t => .exn t else .pure false
  deref s := r.deref s.1
  next s := (r.next s.1).bind fun it => if s.2 = 0 then .ub else .pure (it, s.2 - 1)

/-- As `copyViewC`, of `check_size_not_greater_than(view, limit)` (source/containers/take.cpp 212-216). -/
def copyCheckedC (D : Nat) (p : PipeC τ ρ) (conv : ρ → Item V) (limit cap : Nat) (m : Cells V) (out : Nat) (t : τ) : Out (Cells V × Nat) :=
  match p.build D t with
  | .ub => .ub
  | .exn _ => .exn (m, out)
  | .ok B t => copyLoopC (countedThrowC B.ops) conv cap (cap - out + 1) m out (B.first, limit) t

/-- `uninitialized_copy` (source/containers/algorithms/uninitialized.cpp 54-63) of `check_size_not_greater_than(view, limit)` (source/containers/take.cpp 212-216). The result is the
slots and the end of what was written. -/
def uninitCopyCheckedC (D : Nat) (p : PipeC τ ρ) (conv : ρ → Item V) (limit cap : Nat) (m : Cells V) (out : Nat) (t : τ) : Out (Cells V × Nat) :=
  match copyCheckedC D p conv limit cap m out t with
  | .ok (m', out') => .ok (m', out')
  | .exn (m', out') =>
    match destroyRange cap m' out (out' - out) with
    | some m'' => .exn (m'', out)
    | none => .ub
  | .ub => .ub

namespace Impl

/-- `uninitialized_copy_no_overlap(source, data() + pos)` on the object's own storage (source/containers/algorithms/uninitialized.cpp 77-96); views are not contiguous. -/
def copyFromC (I : Impl V O) (D : Nat) (p : PipeC τ ρ) (conv : ρ → Item V) (t : τ) (h : Heap V) (o : O) (pos : Nat) : Out (Heap V × O) :=
  match uninitCopyC D p conv (I.mem h o).1 (I.mem h o).2 pos t with
  | .ok c => .ok (I.put h o c)
  | .exn c => .exn (I.put h o c)
  | .ub => .ub

/-- `append(target, view)` (source/containers/append.cpp 38-54) for a container that can reserve. -/
def appendC (I : Impl V O) (D : Nat) (p : PipeC τ ρ) (size? : Option Nat) (conv : ρ → Item V) (h : Heap V) (o : O) (al : Nat → Bool) (t : τ) : Out (Heap V × O) :=
  match viewSizeC D p size? t with
  | .ub => .ub
  | .exn _ => .exn (h, o)
  | .ok n t => I.appendGrow h o n (I.copyFromC D p conv t) al

/-- `insert(container, position, view)` (source/containers/insert.cpp 109-135) after the elements have been counted. -/
def insertBy (I : Impl V O) (h : Heap V) (o : O) (k n : Nat) (copy : Heap V → O → Nat → Out (Heap V × O)) (al : Nat → Bool) : Out (Heap V × O) :=
  match I.capacity o with
  | none => .ub
  | some cap =>
    if I.size o + n ≤ cap then I.insertInPlaceBy h o k n copy
    else if I.reservable then I.insertReallocBy h o cap k n copy al
    else .exn (h, o)

/-- `insert(container, position, view)` (source/containers/insert.cpp 109-135) at position `k`. -/
def insertC (I : Impl V O) (D : Nat) (p : PipeC τ ρ) (size? : Option Nat) (conv : ρ → Item V) (h : Heap V) (o : O) (k : Nat) (al : Nat → Bool) (t : τ) : Out (Heap V × O) :=
  if I.size o < k then .ub
  else
    match viewSizeC D p size? t with
    | .ub => .ub
    | .exn _ => .exn (h, o)
    | .ok n t => I.insertBy h o k n (I.copyFromC D p conv t) al

/-- `assign_to_empty(target, view)` (source/containers/assign_to_empty.cpp 60-71) after the elements have been counted. -/
def assignBy (I : Impl V O) (h : Heap V) (o : O) (n : Nat) (copy : Heap V → O → Nat → Out (Heap V × O)) (al : Nat → Bool) : Out (Heap V × O) :=
  match I.capacity o with
  | none => .ub
  | some cap =>
    if I.mx < n then .ub
    else
      match (if cap < n then I.replaceEmpty h o n (al 0) else .ok (h, o)) with
      | .ub => .ub
      | .exn r => .exn r
      | .ok (h1, o1) =>
        match copy h1 o1 0 with
        | .ub => .ub
        | .exn r => .exn r
        | .ok r => I.finish (some r) n

/-- `assign_to_empty(target, view)` (source/containers/assign_to_empty.cpp 60-71) for a container that can reserve, which its constructors from ranges call. -/
def assignC (I : Impl V O) (D : Nat) (p : PipeC τ ρ) (size? : Option Nat) (conv : ρ → Item V) (h : Heap V) (o : O) (al : Nat → Bool) (t : τ) : Out (Heap V × O) :=
  if I.size o ≠ 0 then .ub
  else
    match viewSizeC D p size? t with
    | .ub => .ub
    | .exn _ => .exn (h, o)
    | .ok n t => I.assignBy h o n (I.copyFromC D p conv t) al

/-- `append(target, view)` (source/containers/append.cpp 74-82) of a view that can be gone through only once, for a container that can reserve: every element is pushed back, as `pushAllFrom`. The
iterator is dereferenced in the constructor of the new element. `none` if the loop has not ended after that many steps. -/
def pushAllC [Inhabited V] (I : Impl V O) (r : RngC τ σ ρ) (conv : ρ → Item V) : Nat → Heap V → O → (Nat → Bool) → σ → τ → Option (Out (Heap V × O))
  | 0, _, _, _, _, _ => none
  | f + 1, h, o, al, s, t =>
    match r.atEnd s t with
    | .ub => some .ub
    | .exn _ => some (.exn (h, o))
    | .ok true _ => some (.ok (h, o))
    | .ok false t =>
      match r.deref s t with
      | .ub => some .ub
      | .exn _ => some (I.pushBack h o (.lit default true) al)
      | .ok x t =>
        match I.pushBack h o (.lit (conv x).val (conv x).throws) al with
        | .ub => some .ub
        | .exn q => some (.exn q)
        | .ok (h1, o1) =>
          match r.next s t with
          | .ub => some .ub
          | .exn _ => some (.exn (h1, o1))
          | .ok s' t => pushAllC I r conv f h1 o1 (fun k => al (k + 2)) s' t

/-- The call of `begin` and that loop. -/
def appendSingleC [Inhabited V] (I : Impl V O) (D f : Nat) (p : PipeC τ ρ) (conv : ρ → Item V) (h : Heap V) (o : O) (al : Nat → Bool) (t : τ) : Option (Out (Heap V × O)) :=
  match p.build D t with
  | .ub => some .ub
  | .exn _ => some (.exn (h, o))
  | .ok B t => I.pushAllC B.ops conv f h o al B.first t

/-- `append(target, view)` (source/containers/append.cpp 55-73) for a container that cannot reserve, and its constructors from ranges (source/containers/assign_to_empty.cpp 72-82): a size that is
known is compared with the capacity, otherwise the elements are counted on the way. -/
def appendFixedC (I : Impl V O) (D : Nat) (p : PipeC τ ρ) (size? : Option Nat) (conv : ρ → Item V) (h : Heap V) (o : O) (t : τ) : Out (Heap V × O) :=
  match I.capacity o with
  | none => .ub
  | some cap =>
    match size? with
    | some n =>
      if cap < n then .exn (h, o)
      else
        match I.copyFromC D p conv t h o (I.size o) with
        | .ub => .ub
        | .exn r => .exn r
        | .ok r => I.finish (some r) (I.size o + n)
    | none =>
      match uninitCopyCheckedC D p conv (min cap D) (I.mem h o).1 (I.mem h o).2 (I.size o) t with
      | .ub => .ub
      | .exn (c, _) => .exn (I.put h o c)
      | .ok (c, e) => I.finish (some (I.put h o c)) (I.size o + (e - I.size o))

end Impl

/-! ## The loops -/

/-- An element that throws. -/
def thrower [Inhabited V] : Item V := ⟨default, true⟩

/-- What a pass over a view with the elements `xs` meets: all of them, or an exception after some of them, at the latest when all have been copied. -/
def Meets [Inhabited V] (quiet : Prop) (conv : ρ → Item V) (xs : List ρ) (its : List (Item V)) : Prop :=
  its = xs.map conv ∨ (¬ quiet ∧ ∃ k, k ≤ xs.length ∧ its = (xs.map conv).take k ++ [thrower])

theorem Meets.cases [Inhabited V] {quiet : Prop} {conv : ρ → Item V} {xs : List ρ} {its : List (Item V)} (h : Meets quiet conv xs its) :
    its = xs.map conv ∨ (¬ quiet ∧ noThrow its = false ∧ its.findIdx (·.throws) ≤ xs.length) := by
  rcases h with h | ⟨h1, k, h2, rfl⟩
  · exact .inl h
  · refine .inr ⟨h1, by simp [noThrow, thrower], ?_⟩
    have := List.findIdx_lt_length_of_exists (p := (·.throws)) (xs := (xs.map conv).take k ++ [thrower]) ⟨thrower, by simp, rfl⟩
    simp at this
    omega

theorem Meets.first [Inhabited V] {quiet : Prop} {conv : ρ → Item V} {xs : List ρ} (h : ¬ quiet) : Meets quiet conv xs [thrower] := .inr ⟨h, 0, Nat.zero_le _, by simp⟩

theorem Meets.second [Inhabited V] {quiet : Prop} {conv : ρ → Item V} {x : ρ} {xs : List ρ} (h : ¬ quiet) : Meets quiet conv (x :: xs) [conv x, thrower] := .inr ⟨h, 1, by simp, by simp⟩

theorem Meets.cons [Inhabited V] {quiet : Prop} {conv : ρ → Item V} {x : ρ} {xs : List ρ} {its : List (Item V)} (h : Meets quiet conv xs its) :
    Meets quiet conv (x :: xs) (conv x :: its) := by
  rcases h with rfl | ⟨h1, k, h2, rfl⟩
  · exact .inl rfl
  · exact .inr ⟨h1, k + 1, by simpa using h2, by simp⟩

theorem copyLoopC_eq [Inhabited V] {quiet : Prop} {r : RngC τ σ ρ} {conv : ρ → Item V} : ∀ {xs : List ρ} {s : σ}, VisitsC quiet r s xs → ∀ t, ∃ its, Meets quiet conv xs its ∧
    ∀ cap f m out, cap - out < f → copyLoopC r conv cap f m out s t = copyLoop cap m out its
  | [], s, h, t => by
    have h := h t
    cases e : r.atEnd s t with
    | ub => rw [e] at h; exact h.elim
    | exn t1 =>
      rw [e] at h
      refine ⟨[thrower], .first h, ?_⟩
      intro cap f m out hf
      obtain ⟨f, rfl⟩ : ∃ g, f = g + 1 := ⟨f - 1, by omega⟩
      simp only [copyLoopC, e, copyLoop, thrower, if_true]
    | ok b t1 =>
      rw [e] at h
      have h : b = true := h
      subst h
      refine ⟨[], .inl rfl, ?_⟩
      intro cap f m out hf
      obtain ⟨f, rfl⟩ : ∃ g, f = g + 1 := ⟨f - 1, by omega⟩
      simp only [copyLoopC, e, copyLoop]
  | x :: xs, s, ⟨h1, h2, s', h3, h4⟩, t => by
    have h1 := h1 t
    cases e1 : r.atEnd s t with
    | ub => rw [e1] at h1; exact h1.elim
    | exn t1 =>
      rw [e1] at h1
      refine ⟨[thrower], .first h1, ?_⟩
      intro cap f m out hf
      obtain ⟨f, rfl⟩ : ∃ g, f = g + 1 := ⟨f - 1, by omega⟩
      simp only [copyLoopC, e1, copyLoop, thrower, if_true]
    | ok b t1 =>
      rw [e1] at h1
      have h1 : b = false := h1
      subst h1
      have h2 := h2 t1
      cases e2 : r.deref s t1 with
      | ub => rw [e2] at h2; exact h2.elim
      | exn t2 =>
        rw [e2] at h2
        refine ⟨[thrower], .first h2, ?_⟩
        intro cap f m out hf
        obtain ⟨f, rfl⟩ : ∃ g, f = g + 1 := ⟨f - 1, by omega⟩
        simp only [copyLoopC, e1, e2, copyLoop, thrower, if_true]
      | ok y t2 =>
        rw [e2] at h2
        have h2 : y = x := h2
        subst h2
        cases ht : (conv y).throws with
        | true =>
          refine ⟨_, .inl rfl, ?_⟩
          intro cap f m out hf
          obtain ⟨f, rfl⟩ : ∃ g, f = g + 1 := ⟨f - 1, by omega⟩
          simp only [copyLoopC, e1, e2, List.map_cons, copyLoop, ht, if_true]
        | false =>
          have h3 := h3 t2
          cases e3 : r.next s t2 with
          | ub => rw [e3] at h3; exact h3.elim
          | exn t3 =>
            rw [e3] at h3
            refine ⟨[conv y, thrower], .second h3, ?_⟩
            intro cap f m out hf
            obtain ⟨f, rfl⟩ : ∃ g, f = g + 1 := ⟨f - 1, by omega⟩
            simp only [copyLoopC, e1, e2, e3, copyLoop, ht, Bool.false_eq_true, if_false, thrower, if_true]
            cases construct cap m out (conv y).val <;> rfl
          | ok s1 t3 =>
            rw [e3] at h3
            have h3 : s1 = s' := h3
            subst h3
            obtain ⟨its, hm, ih⟩ := copyLoopC_eq (conv := conv) h4 t3
            refine ⟨conv y :: its, hm.cons, ?_⟩
            · intro cap f m out hf
              obtain ⟨f, rfl⟩ : ∃ g, f = g + 1 := ⟨f - 1, by omega⟩
              simp only [copyLoopC, e1, e2, e3, copyLoop, ht, Bool.false_eq_true, if_false]
              cases hc : construct cap m out (conv y).val with
              | none => rfl
              | some m' =>
                have : out < cap := by
                  unfold construct at hc
                  split at hc
                  · rename_i h; exact h.1
                  · cases hc
                exact ih cap f m' (out + 1) (by omega)

theorem copyFromC_eq [Inhabited V] {D : Nat} (p : PipeC τ ρ) (hp : p.Fits D) (conv : ρ → Item V) (t : τ) :
    ∃ its, Meets p.Quiet conv p.denote its ∧ I.copyFromC D p conv t = fun h o pos => I.copyAt h o pos its := by
  have hv := C116_view p hp t
  have key : ∃ its, Meets p.Quiet conv p.denote its ∧ ∀ cap m out, copyViewC D p conv cap m out t = copyLoop cap m out its := by
    cases e : p.build D t with
    | ub => rw [e] at hv; exact hv.elim
    | exn t1 =>
      rw [e] at hv
      refine ⟨[thrower], .first hv, ?_⟩
      intro cap m out
      simp only [copyViewC, e, copyLoop, thrower, if_true]
    | ok B t1 =>
      rw [e] at hv
      obtain ⟨its, hm, h⟩ := copyLoopC_eq (conv := conv) hv t1
      refine ⟨its, hm, fun cap m out => ?_⟩
      simp only [copyViewC, e]
      exact h _ _ _ _ (Nat.lt_succ_self _)
  obtain ⟨its, hm, h⟩ := key
  refine ⟨its, hm, ?_⟩
  funext h' o pos
  simp only [Impl.copyFromC, Impl.copyAt, uninitCopyC, uninitCopy, h]
  rfl

/-! ## The operations -/

theorem copyLoop_room (cap : Nat) : ∀ (its : List (Item V)) (m : Cells V) (out : Nat), noThrow its = true → copyLoop cap m out its ≠ .ub →
    (its ≠ [] → out + its.length ≤ cap) ∧ ∀ j, out ≤ j → j < out + its.length → m j = none
  | [], m, out, _, _ => ⟨fun h => absurd rfl h, fun j h1 h2 => by simp at h2; omega⟩
  | it :: its, m, out, hn, hu => by
    have hn : it.throws = false ∧ noThrow its = true := by
      simp only [noThrow, List.any_cons, Bool.not_eq_true', Bool.or_eq_false_iff] at hn ⊢
      exact hn
    rw [copyLoop, hn.1] at hu
    simp only [Bool.false_eq_true, if_false] at hu
    cases hc : construct cap m out it.val with
    | none => rw [hc] at hu; exact absurd rfl hu
    | some m' =>
      rw [hc] at hu
      simp only at hu
      have ih := copyLoop_room cap its m' (out + 1) hn.2 hu
      unfold construct at hc
      split at hc
      · rename_i hcond
        cases hc
        refine ⟨fun _ => ?_, fun j h1 h2 => ?_⟩
        · rw [List.length_cons]
          by_cases hi : its = []
          · subst hi; simp; omega
          · have := ih.1 hi; omega
        · rw [List.length_cons] at h2
          by_cases hj : j = out
          · subst hj; exact Option.isNone_iff_eq_none.1 hcond.2
          · have := ih.2 j (by omega) (by omega)
            rwa [upd_other _ _ hj] at this
      · cases hc

/-- If there is room for `n` elements, it does not matter how many of them are copied before an exception. -/
theorem copyAt_swap {n : Nat} (hn : n ≠ 0) {its B B0 : List (Item V)} (h0 : B0.length = n) (h0' : noThrow B0 = true) (h1 : noThrow its = false)
    (h2 : its.findIdx (·.throws) ≤ n) (h3 : B.length = n) (h4 : noThrow B = false) (h : Heap V) (o : O) (pos : Nat) (hu : I.copyAt h o pos B0 ≠ .ub) :
    I.copyAt h o pos its = I.copyAt h o pos B := by
  have hl : copyLoop (I.mem h o).1 (I.mem h o).2 pos B0 ≠ .ub := by
    intro e
    simp only [Impl.copyAt, uninitCopy, e] at hu
    exact hu rfl
  obtain ⟨g1, g2⟩ := copyLoop_room _ _ _ _ h0' hl
  have g1 := g1 (by intro e; subst e; exact hn h0.symm)
  rw [h0] at g1 g2
  simp only [Impl.copyAt]
  rw [uninitCopy_exn' h1 (by omega) (fun j a b => g2 j a (by omega)), uninitCopy_exn h4 (by omega) (fun j a b => g2 j a (by omega))]

theorem appendGrow_swap {n : Nat} {al : Nat → Bool} {h : Heap V} {o : O} {c0 c1 c2 : Heap V → O → Nat → Out (Heap V × O)}
    (hc : ∀ h o pos, c0 h o pos ≠ .ub → c1 h o pos = c2 h o pos) (hu : I.appendGrow h o n c0 al ≠ .ub) :
    I.appendGrow h o n c1 al = I.appendGrow h o n c2 al := by
  simp only [Impl.appendGrow] at hu ⊢
  cases e1 : I.capacity o with
  | none => rfl
  | some cap =>
    simp only [e1] at hu ⊢
    split
    · rename_i hroom
      rw [if_pos hroom] at hu
      rw [hc]
      intro e; rw [e] at hu; exact hu rfl
    · rename_i hroom
      rw [if_neg hroom] at hu
      cases e2 : I.new h (al 0) with
      | exn => rfl
      | ub => rfl
      | ok q =>
        obtain ⟨h1, t⟩ := q
        simp only [e2] at hu ⊢
        cases e3 : I.expForceReserve h1 t cap (I.size o + n) (al 1) with
        | exn q => rfl
        | ub => rfl
        | ok q =>
          obtain ⟨h2, t2⟩ := q
          simp only [e3] at hu ⊢
          rw [hc]
          intro e; rw [e] at hu; exact hu rfl

theorem insertBy_swap {n k : Nat} {al : Nat → Bool} {h : Heap V} {o : O} {c0 c1 c2 : Heap V → O → Nat → Out (Heap V × O)}
    (hc : ∀ h o pos, c0 h o pos ≠ .ub → c1 h o pos = c2 h o pos) (hu : I.insertBy h o k n c0 al ≠ .ub) :
    I.insertBy h o k n c1 al = I.insertBy h o k n c2 al := by
  simp only [Impl.insertBy] at hu ⊢
  cases e1 : I.capacity o with
  | none => rfl
  | some cap =>
    simp only [e1] at hu ⊢
    split
    · rename_i hroom
      rw [if_pos hroom] at hu
      simp only [Impl.insertInPlaceBy] at hu ⊢
      cases e2 : I.modify h o fun cap m => relocBack cap m (I.size o) (I.size o + n) (I.size o - k) with
      | none => rfl
      | some q =>
        obtain ⟨h1, o1⟩ := q
        simp only [e2] at hu ⊢
        rw [hc]
        intro e; rw [e] at hu; exact hu rfl
    · rename_i hroom
      rw [if_neg hroom] at hu
      split
      · rename_i hr
        rw [if_pos hr] at hu
        simp only [Impl.insertReallocBy] at hu ⊢
        cases e2 : I.new h (al 0) with
        | exn => rfl
        | ub => rfl
        | ok q =>
          obtain ⟨h1, t⟩ := q
          simp only [e2] at hu ⊢
          cases e3 : I.expForceReserve h1 t cap (I.size o + n) (al 1) with
          | exn q => rfl
          | ub => rfl
          | ok q =>
            obtain ⟨h2, t2⟩ := q
            simp only [e3] at hu ⊢
            rw [hc]
            intro e; rw [e] at hu; exact hu rfl
      · rfl

theorem Good.not_ub {h : Heap V} {o : O} {q : Out (Heap V × O)} {s : SV V × Bool} (g : Good L h o q s) : q ≠ .ub := by
  obtain ⟨h', o', e, -⟩ := g
  rw [e]
  cases s.2 <;> simp [Out.of]

theorem specInsert_throws (q : Cfg) (s : SV V) (k : Nat) (vs : List V) (al : Nat → Bool) : specInsert q s k vs false al = (s, true) := by
  simp [specInsert]

theorem insertBy_eq (h : Heap V) (o : O) (k : Nat) (src : List (Item V)) (al : Nat → Bool) (hk : ¬ I.size o < k) :
    I.insertBy h o k src.length (fun h o pos => I.copyAt h o pos src) al = I.insert h o k src al := by
  simp only [Impl.insertBy, Impl.insert, if_neg hk, insertInPlaceBy_eq, insertReallocBy_eq]
  rfl

/-- Nothing is copied before the exception: what is written is what was there. -/
theorem copyAt_first {h : Heap V} {o : O} {pos : Nat} {its : List (Item V)} (h1 : noThrow its = false) (h2 : its.findIdx (·.throws) = 0) :
    I.copyAt h o pos its = .exn (I.put h o (I.mem h o).2) := by
  cases its with
  | nil => simp [noThrow] at h1
  | cons it its =>
    have ht : it.throws = true := by
      cases ht : it.throws with
      | true => rfl
      | false => simp [List.findIdx_cons, ht] at h2
    simp only [Impl.copyAt, uninitCopy, copyLoop, ht, if_true, Nat.sub_self, destroyRange]

theorem View.rewrite {h : Heap V} {o : O} {cap n : Nat} {c : Cells V} (v : L.View h o cap c n) :
    ∃ h' o', I.put h o (I.mem h o).2 = (h', o') ∧ L.View h' o' cap c n ∧ I.own o' = I.own o ∧ Frame (I.own o) h (I.own o') h' := by
  obtain ⟨h', o', e, r⟩ := v.modify (f := fun _ m => some m) rfl
  exact ⟨h', o', by simpa [Impl.modify] using e, r⟩

theorem good_append_throws [Inhabited V] {h : Heap V} {o : O} {xs : List V} {cap n : Nat} (r : L.Rep h o xs cap) (hf : Fresh h) (hr : I.reservable = true)
    {its : List (Item V)} (h1 : noThrow its = false) (h2 : its.findIdx (·.throws) ≤ n) (al : Nat → Bool) :
    Good L h o (I.appendGrow h o n (fun h o pos => I.copyAt h o pos its) al) ((xs, cap), true) := by
  have pre : ∀ k, appendPre L.cfg (xs, cap) k := fun k hn => absurd (show I.reservable = false from hn) (by simp [hr])
  by_cases hn : n = 0
  · subst hn
    have hr2 := r.2
    have hs : I.size o = xs.length := r.1.2.2
    obtain ⟨h', o', e, v, eo, fr⟩ := View.rewrite r.view
    refine ⟨h', o', ?_, rep_of v rfl rfl hr2, fr, rule_same r eo⟩
    simp only [Impl.appendGrow, r.view.cap, hs, Nat.add_zero, if_pos hr2, copyAt_first h1 (Nat.le_zero.1 h2), e]
    rfl
  · have g0 := Good.not_ub (good_append r hf (List.replicate n ⟨default, false⟩) al (pre _))
    have g1 := good_append r hf (List.replicate n thrower) al (pre _)
    have t1 : noThrow (List.replicate n (thrower : Item V)) = false := by
      obtain ⟨m, rfl⟩ := Nat.exists_eq_succ_of_ne_zero hn
      simp [noThrow, List.replicate_succ, thrower]
    have e1 : (!(List.replicate n (thrower : Item V)).any (·.throws)) = false := t1
    rw [← appendGrow_eq hr] at g0 g1
    rw [List.length_replicate] at g0 g1
    rw [e1, specInsert_throws] at g1
    rw [appendGrow_swap (c2 := fun h o pos => I.copyAt h o pos (List.replicate n thrower)) (c0 := fun h o pos => I.copyAt h o pos (List.replicate n ⟨default, false⟩)) ?_ g0]
    · exact g1
    · intro h o pos hu
      exact copyAt_swap hn (B0 := List.replicate n ⟨default, false⟩) (by simp) (by simp [noThrow]) h1 h2 (by simp) t1 h o pos hu

theorem good_insert_throws [Inhabited V] {h : Heap V} {o : O} {xs : List V} {cap k n : Nat} (r : L.Rep h o xs cap) (hf : Fresh h) (hk : k ≤ xs.length)
    (hne : n = 0 → k = xs.length) {its : List (Item V)} (h1 : noThrow its = false) (h2 : its.findIdx (·.throws) ≤ n) (al : Nat → Bool) :
    Good L h o (I.insertBy h o k n (fun h o pos => I.copyAt h o pos its) al) ((xs, cap), true) := by
  have hs : I.size o = xs.length := r.1.2.2
  have hr2 := r.2
  by_cases hn : n = 0
  · subst hn
    have hk' := hne rfl
    subst hk'
    obtain ⟨ha, oa, ea, va, eoa, fra⟩ := r.view.modify (f := fun cap m => relocBack cap m xs.length xs.length 0) (c' := cells xs) rfl
    obtain ⟨hb, ob, eb, vb, eob, frb⟩ := View.rewrite va
    obtain ⟨hc, oc, ec, vc, eoc, frc⟩ := vb.modify (f := fun cap m => relocFwd cap m xs.length xs.length 0) (c' := cells xs) rfl
    refine ⟨hc, oc, ?_, rep_of vc rfl rfl hr2, (fra.trans frb).trans frc, rule_same r (eoc.trans (eob.trans eoa))⟩
    simp only [Impl.insertBy, r.view.cap, hs, Nat.add_zero, if_pos hr2, Impl.insertInPlaceBy, Nat.sub_self, ea, copyAt_first h1 (Nat.le_zero.1 h2), eb, ec]
    rfl
  · have hk2 : ¬ I.size o < k := by omega
    have g0 := Good.not_ub (good_insert r hf (List.replicate n ⟨default, false⟩) al hk (by intro e; simp at e; exact absurd e hn))
    have g1 := good_insert r hf (List.replicate n thrower) al hk (by intro e; simp at e; exact absurd e hn)
    have t1 : noThrow (List.replicate n (thrower : Item V)) = false := by
      obtain ⟨m, rfl⟩ := Nat.exists_eq_succ_of_ne_zero hn
      simp [noThrow, List.replicate_succ, thrower]
    have e1 : (!(List.replicate n (thrower : Item V)).any (·.throws)) = false := t1
    rw [← insertBy_eq _ _ _ _ _ hk2] at g0 g1
    rw [List.length_replicate] at g0 g1
    rw [e1, specInsert_throws] at g1
    rw [insertBy_swap (c2 := fun h o pos => I.copyAt h o pos (List.replicate n thrower)) (c0 := fun h o pos => I.copyAt h o pos (List.replicate n ⟨default, false⟩)) ?_ g0]
    · exact g1
    · intro h o pos hu
      exact copyAt_swap hn (B0 := List.replicate n ⟨default, false⟩) (by simp) (by simp [noThrow]) h1 h2 (by simp) t1 h o pos hu

theorem viewSizeC_post {D : Nat} (p : PipeC τ ρ) (hp : p.Fits D) {size? : Option Nat} (hs : ∀ n, size? = some n → n = p.denote.length) :
    Post p.Quiet (viewSizeC D p size?) (· = p.denote.length) := by
  cases size? with
  | some n => exact Post.pure (hs n rfl)
  | none => exact (onView_post (X := True) p hp fun _ v hl => (distanceC_post v hl).mono id fun _ e => e.trans (Nat.zero_add _)).mono (fun h => ⟨trivial, h⟩) fun _ e => e

/-- When the operation may fail because of the view or the conversion of its elements: only if a function may throw or a conversion throws, and always if a conversion throws. -/
def MayFail (p : PipeC τ ρ) (conv : ρ → Item V) (fails : Bool) : Prop :=
  (p.Quiet → (∀ x ∈ p.denote, (conv x).throws = false) → fails = false) ∧ ((∃ x ∈ p.denote, (conv x).throws = true) → fails = true)

theorem mayFail_all (p : PipeC τ ρ) (conv : ρ → Item V) : MayFail p conv ((p.denote.map conv).any (·.throws)) :=
  ⟨fun _ h => by simpa using h, fun h => by simpa using h⟩

theorem mayFail_true (p : PipeC τ ρ) (conv : ρ → Item V) (h : ¬ p.Quiet) : MayFail p conv true := ⟨fun g => absurd g h, fun _ => rfl⟩

/-- **C119**, `append` of a view whose functions may throw at any call of either pass, and whose elements may throw when they are converted, to a container that can
reserve: nothing undefined happens. Either all elements of the view are at the end, once each and in order, or the call throws and the container has the elements
and the capacity it had. It throws only if a function, a conversion or an allocation does. -/
theorem C119_append [Inhabited V] {h : Heap V} {o : O} {xs : List V} {cap D : Nat} (r : L.Rep h o xs cap) (hf : Fresh h) (hr : I.reservable = true) (p : PipeC τ ρ)
    (hp : p.Fits D) {size? : Option Nat} (hs : ∀ n, size? = some n → n = p.denote.length) (conv : ρ → Item V) (al : Nat → Bool) (t : τ) :
    ∃ fails, MayFail p conv fails ∧
      Good L h o (I.appendC D p size? conv h o al t) (specInsert L.cfg (xs, cap) xs.length (p.denote.map fun x => (conv x).val) (!fails) al) := by
  have hz := viewSizeC_post p hp hs t
  simp only [Impl.appendC]
  cases e : viewSizeC D p size? t with
  | ub => rw [e] at hz; exact hz.elim
  | exn t1 =>
    rw [e] at hz
    refine ⟨true, mayFail_true p conv hz, ?_⟩
    rw [Bool.not_true, specInsert_throws]
    exact good_same r true
  | ok n t1 =>
    rw [e] at hz
    have hz : n = p.denote.length := hz
    subst hz
    obtain ⟨its, hm, ec⟩ := copyFromC_eq (I := I) p hp conv t1
    simp only [ec]
    rcases hm.cases with rfl | ⟨g1, g2, g3⟩
    · refine ⟨_, mayFail_all p conv, ?_⟩
      have := good_append r hf (p.denote.map conv) al (fun hn => absurd (show I.reservable = false from hn) (by simp [hr]))
      rw [← appendGrow_eq hr, List.length_map, List.map_map] at this
      exact this
    · refine ⟨true, mayFail_true p conv g1, ?_⟩
      rw [Bool.not_true, specInsert_throws]
      exact good_append_throws r hf hr g2 g3 al

/-- **C119**, `insert` of such a view at any position: all elements of the view are there, once each and in order, and the others are around them, or the call throws
and the container has the elements and the capacity it had, although the elements after the position have been moved to make room. Missing: an empty view that
is not inserted at the end (`C119_insert_nothing_violated`). -/
theorem C119_insert_partial [Inhabited V] {h : Heap V} {o : O} {xs : List V} {cap k D : Nat} (r : L.Rep h o xs cap) (hf : Fresh h) (p : PipeC τ ρ)
    (hp : p.Fits D) {size? : Option Nat} (hs : ∀ n, size? = some n → n = p.denote.length) (conv : ρ → Item V) (al : Nat → Bool) (t : τ) (hk : k ≤ xs.length)
    (hne : p.denote = [] → k = xs.length) :
    ∃ fails, MayFail p conv fails ∧
      Good L h o (I.insertC D p size? conv h o k al t) (specInsert L.cfg (xs, cap) k (p.denote.map fun x => (conv x).val) (!fails) al) := by
  have hz := viewSizeC_post p hp hs t
  have hk2 : ¬ I.size o < k := by have : I.size o = xs.length := r.1.2.2; omega
  simp only [Impl.insertC, if_neg hk2]
  cases e : viewSizeC D p size? t with
  | ub => rw [e] at hz; exact hz.elim
  | exn t1 =>
    rw [e] at hz
    refine ⟨true, mayFail_true p conv hz, ?_⟩
    rw [Bool.not_true, specInsert_throws]
    exact good_same r true
  | ok n t1 =>
    rw [e] at hz
    have hz : n = p.denote.length := hz
    subst hz
    obtain ⟨its, hm, ec⟩ := copyFromC_eq (I := I) p hp conv t1
    simp only [ec]
    rcases hm.cases with rfl | ⟨g1, g2, g3⟩
    · refine ⟨_, mayFail_all p conv, ?_⟩
      have := good_insert r hf (p.denote.map conv) al hk (by intro e; exact hne (List.map_eq_nil_iff.1 e))
      rw [← insertBy_eq _ _ _ _ _ hk2, List.length_map, List.map_map] at this
      exact this
    · refine ⟨true, mayFail_true p conv g1, ?_⟩
      rw [Bool.not_true, specInsert_throws]
      exact good_insert_throws r hf hk (fun e => hne (List.length_eq_zero_iff.1 e)) g2 g3 al

theorem assignBy_swap {n : Nat} {al : Nat → Bool} {h : Heap V} {o : O} {c0 c1 c2 : Heap V → O → Nat → Out (Heap V × O)}
    (hc : ∀ h o pos, c0 h o pos ≠ .ub → c1 h o pos = c2 h o pos) (hu : I.assignBy h o n c0 al ≠ .ub) :
    I.assignBy h o n c1 al = I.assignBy h o n c2 al := by
  simp only [Impl.assignBy] at hu ⊢
  cases e1 : I.capacity o with
  | none => rfl
  | some cap =>
    simp only [e1] at hu ⊢
    split
    · rfl
    · rename_i hm
      rw [if_neg hm] at hu
      cases e2 : (if cap < n then I.replaceEmpty h o n (al 0) else .ok (h, o)) with
      | exn q => rfl
      | ub => rfl
      | ok q =>
        obtain ⟨h1, o1⟩ := q
        simp only [e2] at hu ⊢
        rw [hc]
        intro e; rw [e] at hu; exact hu rfl

theorem assignBy_eq (hr : I.reservable = true) (h : Heap V) (o : O) (src : List (Item V)) (al : Nat → Bool) (hs : I.size o = 0) :
    I.assignBy h o src.length (fun h o pos => I.copyAt h o pos src) al = I.assignToEmpty h o src al := by
  simp only [Impl.assignBy, Impl.assignToEmpty, hs, ne_eq, not_true, if_false, hr, if_true]
  rfl

theorem good_assign_throws [Inhabited V] {h : Heap V} {o : O} {cap n : Nat} (r : L.Rep h o [] cap) (hf : Fresh h) (hr : I.reservable = true)
    {its : List (Item V)} (h1 : noThrow its = false) (h2 : its.findIdx (·.throws) ≤ n) (al : Nat → Bool) (hm : n ≤ I.mx) (ha : cap < n → al 0 = false) :
    Good L h o (I.assignBy h o n (fun h o pos => I.copyAt h o pos its) al) (([], max cap n), true) := by
  have hs : I.size o = 0 := r.1.2.2
  have pre : ∀ src : List (Item V), src.length = n → I.reservable = true → src.length ≤ I.mx ∧ (cap < src.length → al 0 = false) := by
    intro src e _; rw [e]; exact ⟨hm, ha⟩
  by_cases hn : n = 0
  · subst hn
    obtain ⟨h', o', e, v, eo, fr⟩ := View.rewrite r.view
    rw [Nat.max_zero]
    refine ⟨h', o', ?_, rep_of v rfl rfl r.2, fr, rule_same r eo⟩
    simp only [Impl.assignBy, r.view.cap, Nat.not_lt_zero, if_false, copyAt_first h1 (Nat.le_zero.1 h2), e]
    rfl
  · have g0 := Good.not_ub (good_assignToEmpty r hf (List.replicate n ⟨default, false⟩) al (pre _ (by simp)))
    have g1 := good_assignToEmpty r hf (List.replicate n thrower) al (pre _ (by simp))
    have t1 : noThrow (List.replicate n (thrower : Item V)) = false := by
      obtain ⟨m, rfl⟩ := Nat.exists_eq_succ_of_ne_zero hn
      simp [noThrow, List.replicate_succ, thrower]
    have e1 : (List.replicate n (thrower : Item V)).any (·.throws) = true := by simpa [noThrow] using t1
    rw [← assignBy_eq hr _ _ _ _ hs] at g0 g1
    rw [List.length_replicate] at g0 g1
    have hcfg : L.cfg.reservable = true := hr
    simp only [GOp.spec, hcfg, Bool.not_true, Bool.false_and, Bool.false_eq_true, if_false, e1, if_true, List.length_replicate] at g1
    rw [assignBy_swap (c2 := fun h o pos => I.copyAt h o pos (List.replicate n thrower)) (c0 := fun h o pos => I.copyAt h o pos (List.replicate n ⟨default, false⟩)) ?_ g0]
    · exact g1
    · intro h o pos hu
      exact copyAt_swap hn (B0 := List.replicate n ⟨default, false⟩) (by simp) (by simp [noThrow]) h1 h2 (by simp) t1 h o pos hu

/-- **C119**, `assign_to_empty` and the constructors from such a view, for a container that can reserve: the container has all elements of the view, once each and in order, or
the call throws and it is empty. Missing: more elements than the greatest size, and an allocation that fails (C25). -/
theorem C119_construct_partial [Inhabited V] {h : Heap V} {o : O} {cap D : Nat} (r : L.Rep h o [] cap) (hf : Fresh h) (hr : I.reservable = true) (p : PipeC τ ρ)
    (hp : p.Fits D) {size? : Option Nat} (hs : ∀ n, size? = some n → n = p.denote.length) (conv : ρ → Item V) (al : Nat → Bool) (t : τ)
    (hm : p.denote.length ≤ I.mx) (ha : cap < p.denote.length → al 0 = false) :
    ∃ fails cap', MayFail p conv fails ∧ cap ≤ cap' ∧
      Good L h o (I.assignC D p size? conv h o al t) ((if fails then [] else p.denote.map fun x => (conv x).val, cap'), fails) := by
  have hz := viewSizeC_post p hp hs t
  have h0 : I.size o = 0 := r.1.2.2
  simp only [Impl.assignC, h0, ne_eq, not_true, if_false]
  cases e : viewSizeC D p size? t with
  | ub => rw [e] at hz; exact hz.elim
  | exn t1 =>
    rw [e] at hz
    exact ⟨true, cap, mayFail_true p conv hz, Nat.le_refl _, good_same r true⟩
  | ok n t1 =>
    rw [e] at hz
    have hz : n = p.denote.length := hz
    subst hz
    obtain ⟨its, hm', ec⟩ := copyFromC_eq (I := I) p hp conv t1
    simp only [ec]
    rcases hm'.cases with rfl | ⟨g1, g2, g3⟩
    · refine ⟨_, max cap p.denote.length, mayFail_all p conv, Nat.le_max_left _ _, ?_⟩
      have := good_assignToEmpty r hf (p.denote.map conv) al (by intro _; rw [List.length_map]; exact ⟨hm, ha⟩)
      rw [← assignBy_eq hr _ _ _ _ h0, List.length_map] at this
      have hcfg : L.cfg.reservable = true := hr
      simp only [GOp.spec, hcfg, Bool.not_true, Bool.false_and, Bool.false_eq_true, if_false, List.length_map, List.map_map] at this
      cases hb : (p.denote.map conv).any (·.throws) with
      | true => simp only [hb, if_true] at this ⊢; exact this
      | false => simp only [hb, Bool.false_eq_true, if_false] at this ⊢; exact this
    · exact ⟨true, _, mayFail_true p conv g1, Nat.le_max_left _ _, good_assign_throws r hf hr g2 g3 al hm ha⟩

theorem copyLoopC_counted [Inhabited V] {quiet : Prop} {r : RngC τ σ ρ} {conv : ρ → Item V} : ∀ {xs : List ρ} {s : σ}, VisitsC quiet r s xs → ∀ t, ∃ its, Meets quiet conv xs its ∧
    ∀ c cap f m out, cap - out < f → copyLoopC (countedThrowC r) conv cap f m out (s, c) t = copyLoop cap m out (checkedView c its)
  | [], s, h, t => by
    have h := h t
    cases e : r.atEnd s t with
    | ub => rw [e] at h; exact h.elim
    | exn t1 =>
      rw [e] at h
      refine ⟨[thrower], .first h, ?_⟩
      intro c cap f m out hf
      obtain ⟨f, rfl⟩ : ∃ g, f = g + 1 := ⟨f - 1, by omega⟩
      cases c <;> simp only [copyLoopC, countedThrowC, Act.bind, e, checkedView, copyLoop, thrower, if_true]
    | ok b t1 =>
      rw [e] at h
      have h : b = true := h
      subst h
      refine ⟨[], .inl rfl, ?_⟩
      intro c cap f m out hf
      obtain ⟨f, rfl⟩ : ∃ g, f = g + 1 := ⟨f - 1, by omega⟩
      simp only [copyLoopC, countedThrowC, Act.bind, e, if_true, Act.pure, checkedView, copyLoop]
  | x :: xs, s, ⟨h1, h2, s', h3, h4⟩, t => by
    have h1 := h1 t
    cases e1 : r.atEnd s t with
    | ub => rw [e1] at h1; exact h1.elim
    | exn t1 =>
      rw [e1] at h1
      refine ⟨[thrower], .first h1, ?_⟩
      intro c cap f m out hf
      obtain ⟨f, rfl⟩ : ∃ g, f = g + 1 := ⟨f - 1, by omega⟩
      cases c <;> simp only [copyLoopC, countedThrowC, Act.bind, e1, checkedView, copyLoop, thrower, if_true]
    | ok b t1 =>
      rw [e1] at h1
      have h1 : b = false := h1
      subst h1
      -- without room for another element the comparison with the end throws, whatever comes next
      have full : ∀ (it : Item V) (its : List (Item V)) cap f m out, cap - out < f →
          copyLoopC (countedThrowC r) conv cap f m out (s, 0) t = copyLoop cap m out (checkedView 0 (it :: its)) := by
        intro it its cap f m out hf
        obtain ⟨f, rfl⟩ : ∃ g, f = g + 1 := ⟨f - 1, by omega⟩
        have a1 : (countedThrowC r).atEnd (s, 0) t = .exn t1 := by simp [countedThrowC, Act.bind, e1]
        simp only [copyLoopC, a1, checkedView, copyLoop, if_true]
      have a1 : ∀ c, (countedThrowC r).atEnd (s, c + 1) t = .ok false t1 := by intro c; simp [countedThrowC, Act.bind, e1, Act.pure]
      have a2 : ∀ c, (countedThrowC r).deref (s, c + 1) t1 = r.deref s t1 := fun _ => rfl
      have h2 := h2 t1
      cases e2 : r.deref s t1 with
      | ub => rw [e2] at h2; exact h2.elim
      | exn t2 =>
        rw [e2] at h2
        refine ⟨[thrower], .first h2, ?_⟩
        intro c cap f m out hf
        cases c with
        | zero => exact full _ _ _ _ _ _ hf
        | succ c =>
          obtain ⟨f, rfl⟩ : ∃ g, f = g + 1 := ⟨f - 1, by omega⟩
          simp only [copyLoopC, a1, a2, e2, checkedView, copyLoop, thrower, if_true]
      | ok y t2 =>
        rw [e2] at h2
        have h2 : y = x := h2
        subst h2
        cases ht : (conv y).throws with
        | true =>
          refine ⟨_, .inl rfl, ?_⟩
          intro c cap f m out hf
          cases c with
          | zero => exact full _ _ _ _ _ _ hf
          | succ c =>
            obtain ⟨f, rfl⟩ : ∃ g, f = g + 1 := ⟨f - 1, by omega⟩
            simp only [copyLoopC, a1, a2, e2, List.map_cons, checkedView, copyLoop, ht, if_true]
        | false =>
          have h3 := h3 t2
          cases e3 : r.next s t2 with
          | ub => rw [e3] at h3; exact h3.elim
          | exn t3 =>
            rw [e3] at h3
            refine ⟨[conv y, thrower], .second h3, ?_⟩
            intro c cap f m out hf
            cases c with
            | zero => exact full _ _ _ _ _ _ hf
            | succ c =>
              obtain ⟨f, rfl⟩ : ∃ g, f = g + 1 := ⟨f - 1, by omega⟩
              have a3 : (countedThrowC r).next (s, c + 1) t2 = .exn t3 := by simp [countedThrowC, Act.bind, e3]
              simp only [copyLoopC, a1, a2, e2, a3, checkedView, copyLoop, ht, Bool.false_eq_true, if_false]
              cases construct cap m out (conv y).val with
              | none => rfl
              | some m' => cases c <;> simp only [checkedView, copyLoop, thrower, if_true]
          | ok s1 t3 =>
            rw [e3] at h3
            have h3 : s1 = s' := h3
            subst h3
            obtain ⟨its, hm, ih⟩ := copyLoopC_counted (conv := conv) h4 t3
            refine ⟨conv y :: its, hm.cons, ?_⟩
            · intro c cap f m out hf
              cases c with
              | zero => exact full _ _ _ _ _ _ hf
              | succ c =>
                obtain ⟨f, rfl⟩ : ∃ g, f = g + 1 := ⟨f - 1, by omega⟩
                rw [copyLoopC]
                simp only [checkedView, copyLoop, ht, Bool.false_eq_true, if_false]
                have a3 : (countedThrowC r).next (s, c + 1) t2 = .ok (s1, c) t3 := by simp [countedThrowC, Act.bind, e3, Act.pure]
                simp only [a1, a2, e2, a3, ht, Bool.false_eq_true, if_false]
                cases hc : construct cap m out (conv y).val with
                | none => rfl
                | some m' =>
                  have : out < cap := by
                    unfold construct at hc
                    split at hc
                    · rename_i h; exact h.1
                    · cases hc
                  exact ih c cap f m' (out + 1) (by omega)

theorem checkedView_throws : ∀ (its : List (Item V)) (c : Nat), noThrow its = false →
    noThrow (checkedView c its) = false ∧ (checkedView c its).findIdx (·.throws) ≤ c ∧ (checkedView c its).findIdx (·.throws) ≤ its.findIdx (·.throws)
  | [], _, h => by simp [noThrow] at h
  | it :: its, 0, _ => by simp [checkedView, noThrow, List.findIdx_cons]
  | it :: its, c + 1, h => by
    rw [checkedView]
    cases ht : it.throws with
    | true => simp [noThrow, ht, List.findIdx_cons]
    | false =>
      have h : noThrow its = false := by simpa [noThrow, ht] using h
      obtain ⟨g1, g2, g3⟩ := checkedView_throws its c h
      refine ⟨by simpa [noThrow, ht] using g1, ?_, ?_⟩
      · simp only [List.findIdx_cons, ht, cond_false]; omega
      · simp only [List.findIdx_cons, ht, cond_false]; omega

theorem uninitCopyCheckedC_eq [Inhabited V] {D : Nat} (p : PipeC τ ρ) (hp : p.Fits D) (conv : ρ → Item V) (t : τ) :
    ∃ its, Meets p.Quiet conv p.denote its ∧ ∀ limit cap m out, uninitCopyCheckedC D p conv limit cap m out t =
      match uninitCopy cap m out (checkedView limit its) with
      | .ok c => .ok (c, out + (checkedView limit its).length)
      | .exn c => .exn (c, out)
      | .ub => .ub := by
  have hv := C116_view p hp t
  have key : ∃ its, Meets p.Quiet conv p.denote its ∧ ∀ limit cap m out, copyCheckedC D p conv limit cap m out t = copyLoop cap m out (checkedView limit its) := by
    cases e : p.build D t with
    | ub => rw [e] at hv; exact hv.elim
    | exn t1 =>
      rw [e] at hv
      refine ⟨[thrower], .first hv, ?_⟩
      intro limit cap m out
      cases limit <;> simp only [copyCheckedC, e, checkedView, copyLoop, thrower, if_true]
    | ok B t1 =>
      rw [e] at hv
      obtain ⟨its, hm, h⟩ := copyLoopC_counted (conv := conv) hv t1
      refine ⟨its, hm, fun limit cap m out => ?_⟩
      simp only [copyCheckedC, e]
      exact h _ _ _ _ _ (Nat.lt_succ_self _)
  obtain ⟨its, hm, h⟩ := key
  refine ⟨its, hm, fun limit cap m out => ?_⟩
  simp only [uninitCopyCheckedC, uninitCopy, h]
  cases hc : copyLoop cap m out (checkedView limit its) with
  | ok x =>
    obtain ⟨c, e⟩ := x
    have := copyLoop_end _ _ _ _ hc
    subst this
    rfl
  | exn x =>
    obtain ⟨c, e⟩ := x
    simp only
    cases destroyRange cap c out (e - out) <;> rfl
  | ub => rfl

/-- **C119**, `append` of such a view to a container that cannot reserve, and its constructors from such views. Missing: elements for which there is no room, if the container has elements and
the capacity is not less than their number (`C28_append_violated`): that is undefined. -/
theorem C119_append_fixed_partial [Inhabited V] {h : Heap V} {o : O} {xs : List V} {cap D : Nat} (r : L.Rep h o xs cap) (hf : Fresh h) (hr : I.reservable = false) (p : PipeC τ ρ)
    (hp : p.Fits D) {size? : Option Nat} (hs : ∀ n, size? = some n → n = p.denote.length) (conv : ρ → Item V) (al : Nat → Bool) (t : τ)
    (hroom : xs.length + p.denote.length ≤ cap ∨ (size?.isSome = true ∧ cap < p.denote.length) ∨ xs = []) :
    ∃ fails, MayFail p conv fails ∧
      Good L h o (I.appendFixedC D p size? conv h o t) (specInsert L.cfg (xs, cap) xs.length (p.denote.map fun x => (conv x).val) (!fails) al) := by
  have hsz : I.size o = xs.length := r.1.2.2
  have hcfg : L.cfg.reservable = false := hr
  -- nothing is left of what was copied before an exception
  have fail : ∀ its : List (Item V), noThrow its = false → xs.length + its.findIdx (·.throws) ≤ cap → ∃ h' o', uninitCopy (I.mem h o).1 (I.mem h o).2 (I.size o) its = .exn (I.mem h o).2 ∧
      I.put h o (I.mem h o).2 = (h', o') ∧ L.Rep h' o' xs cap ∧ Frame (I.own o) h (I.own o') h' ∧ PtrRule I h o o' cap := by
    intro its g1 g2
    obtain ⟨h', o', e, v, eo, fr⟩ := View.rewrite r.view
    refine ⟨h', o', ?_, e, rep_of v rfl rfl r.2, fr, rule_same r eo⟩
    exact uninitCopy_exn' g1 (by rw [r.mem, hsz]; exact g2) (fun j a b => by rw [r.mem]; exact cells_raw (by omega))
  simp only [Impl.appendFixedC, r.view.cap]
  cases size? with
  | some n =>
    have hn := hs n rfl
    subst hn
    simp only
    have hpre : cap < p.denote.length ∨ xs.length + p.denote.length ≤ cap := by
      rcases hroom with a | a | a
      · exact .inr a
      · exact .inl a.2
      · subst a; simp only [List.length_nil, Nat.zero_add]; omega
    obtain ⟨its, hm, ec⟩ := copyFromC_eq (I := I) p hp conv t
    rcases hm.cases with rfl | ⟨g1, g2, g3⟩
    · refine ⟨_, mayFail_all p conv, ?_⟩
      have := good_append r hf (p.denote.map conv) al (by intro _; rw [List.length_map]; exact hpre.symm)
      rw [List.map_map] at this
      simp only [Impl.append, r.view.cap, hr, Bool.false_eq_true, if_false, List.length_map] at this
      rw [ec]
      exact this
    · refine ⟨true, mayFail_true p conv g1, ?_⟩
      rw [Bool.not_true, specInsert_throws]
      split
      · exact good_same r true
      · obtain ⟨h', o', e1, e2, e3⟩ := fail its g2 (by omega)
        refine ⟨h', o', ?_, e3⟩
        simp only [ec, Impl.copyAt, e1, e2]
        rfl
  | none =>
    have hpre : xs.length + p.denote.length ≤ cap ∨ xs = [] := by
      rcases hroom with a | a | a
      · exact .inl a
      · exact absurd a.1 (by simp)
      · exact .inr a
    obtain ⟨its, hm, ec⟩ := uninitCopyCheckedC_eq (V := V) p hp conv t
    simp only [ec]
    rcases hm.cases with rfl | ⟨g1, g2, g3⟩
    · refine ⟨_, mayFail_all p conv, ?_⟩
      have hpre' : (GOp.appendUnsized (p.denote.map conv) al).pre L.cfg (xs, cap) := by
        simp only [GOp.pre, hcfg, Bool.false_eq_true, if_false, List.length_map]
        exact hpre
      have := good_appendUnsized r hf (p.denote.map conv) al hpre'
      simp only [GOp.spec, hcfg, Bool.false_eq_true, if_false, List.map_map, Impl.appendUnsized, hr, r.view.cap] at this
      rw [checkedView_min (by rw [List.length_map]; exact p.length_le hp)]
      refine cast (congrArg (fun q => Good L h o q _) ?_) this
      simp only [Impl.copyAt]
      cases hc : uninitCopy (I.mem h o).1 (I.mem h o).2 (I.size o) (checkedView cap (p.denote.map conv)) with
      | ub => rfl
      | exn c => rfl
      | ok c =>
        simp only [Nat.add_sub_cancel_left]
        have hn : noThrow (checkedView cap (p.denote.map conv)) = true :=
          copyAt_noThrow (I := I) (h := h) (o := o) (pos := I.size o) (x := I.put h o c) (by simp only [Impl.copyAt, hc])
        by_cases hl : (p.denote.map conv).length ≤ cap
        · rw [checkedView_fits _ _ hl]
        · rw [(checkedView_over _ cap (by omega)).1] at hn
          cases hn
    · refine ⟨true, mayFail_true p conv g1, ?_⟩
      rw [Bool.not_true, specInsert_throws]
      obtain ⟨k1, k2, k3⟩ := checkedView_throws its (min cap D) g2
      obtain ⟨h', o', e1, e2, e3⟩ := fail _ k1 (by
        rcases hpre with a | a
        · omega
        · subst a; simp only [List.length_nil]; omega)
      refine ⟨h', o', ?_, e3⟩
      simp only [e1, e2]
      rfl

theorem good_pushAllC [Inhabited V] {quiet : Prop} {r : RngC τ σ ρ} {conv : ρ → Item V} : ∀ {xs : List ρ} {s : σ}, VisitsC quiet r s xs →
    ∀ {f : Nat} {al : Nat → Bool} {h : Heap V} {o : O} {ys : List V} {cap : Nat} (t : τ), xs.length < f → L.Rep h o ys cap → Fresh h → pushesPre L.cfg (ys, cap) (xs.map conv) al →
    ∃ its, Meets quiet conv xs its ∧ ∃ q, I.pushAllC r conv f h o al s t = some q ∧ Good L h o q (specPushes L.cfg (ys, cap) its al)
  | [], s, hv, f, al, h, o, ys, cap, t, hf, rep, _, _ => by
    obtain ⟨f, rfl⟩ : ∃ g, f = g + 1 := ⟨f - 1, by omega⟩
    have hv := hv t
    cases e : r.atEnd s t with
    | ub => rw [e] at hv; exact hv.elim
    | exn t1 =>
      rw [e] at hv
      refine ⟨[thrower], .first hv, .exn (h, o), by simp only [Impl.pushAllC, e], ?_⟩
      simp only [specPushes, thrower, specPush_throws, if_true]
      exact good_same rep true
    | ok b t1 =>
      rw [e] at hv
      have hv : b = true := hv
      subst hv
      exact ⟨[], .inl rfl, .ok (h, o), by simp only [Impl.pushAllC, e], good_same rep false⟩
  | x :: xs, s, ⟨h1, h2, s', h3, h4⟩, f, al, h, o, ys, cap, t, hf, rep, hfr, hp => by
    obtain ⟨f, rfl⟩ : ∃ g, f = g + 1 := ⟨f - 1, by omega⟩
    have h1 := h1 t
    cases e1 : r.atEnd s t with
    | ub => rw [e1] at h1; exact h1.elim
    | exn t1 =>
      rw [e1] at h1
      refine ⟨[thrower], .first h1, .exn (h, o), by simp only [Impl.pushAllC, e1], ?_⟩
      simp only [specPushes, thrower, specPush_throws, if_true]
      exact good_same rep true
    | ok b t1 =>
      rw [e1] at h1
      have h1 : b = false := h1
      subst h1
      have h2 := h2 t1
      cases e2 : r.deref s t1 with
      | ub => rw [e2] at h2; exact h2.elim
      | exn t2 =>
        rw [e2] at h2
        refine ⟨[thrower], .first h2, _, by simp only [Impl.pushAllC, e1, e2]; rfl, ?_⟩
        have hg := good_push rep hfr (.lit default true) default true al hp.1 (.inl rfl)
        simp only [specPushes, thrower, specPush_throws, if_true]
        rw [specPush_throws] at hg
        exact hg
      | ok y t2 =>
        rw [e2] at h2
        have h2 : y = x := h2
        subst h2
        obtain ⟨h1', o1, g1, r1, f1, pr1⟩ := good_push rep hfr (.lit (conv y).val (conv y).throws) (conv y).val (conv y).throws al hp.1 (.inl rfl)
        cases hb : (specPush L.cfg (ys, cap) (conv y).val (conv y).throws al).2 with
        | true =>
          refine ⟨(y :: xs).map conv, .inl rfl, .exn (h1', o1), ?_, h1', o1, ?_, ?_⟩
          · simp only [Impl.pushAllC, e1, e2, g1, hb, Out.of_true]
          · simp only [List.map_cons, specPushes, hb, if_true]; rfl
          · simp only [List.map_cons, specPushes, hb, if_true]; exact ⟨r1, f1, pr1⟩
        | false =>
          have h3 := h3 t2
          cases e3 : r.next s t2 with
          | ub => rw [e3] at h3; exact h3.elim
          | exn t3 =>
            rw [e3] at h3
            refine ⟨[conv y, thrower], .second h3, .exn (h1', o1), ?_, ?_⟩
            · simp only [Impl.pushAllC, e1, e2, g1, hb, Out.of_false, e3]
            · simp only [specPushes, hb, Bool.false_eq_true, if_false, thrower, specPush_throws, if_true]
              exact ⟨h1', o1, rfl, r1, f1, pr1⟩
          | ok s1 t3 =>
            rw [e3] at h3
            have h3 : s1 = s' := h3
            subst h3
            obtain ⟨its, hm, q, e4, h2', o2, e5, r2, f2, pr2⟩ := good_pushAllC h4 (al := fun k => al (k + 2)) t3 (by simpa using hf) r1 (f1.fresh hfr) (hp.2 hb)
            refine ⟨conv y :: its, hm.cons, q, ?_, ?_⟩
            · simp only [Impl.pushAllC, e1, e2, g1, hb, Out.of_false, e3, e4]
            · simp only [specPushes, hb, Bool.false_eq_true, if_false]
              exact ⟨h2', o2, e5, r2, f1.trans f2, rule_push rep r1 pr1 pr2 (specPush_cap _ (ys, cap) _ _ _) (specPushes_cap _ _ _ _)⟩

/-- **C119**, `append` of such a view that can be gone through only once, to a container that can reserve: the elements are added one after the other up to the first exception of a function, a
conversion or an allocation, and those that were added before stay. Missing: a full container whose capacity cannot be doubled (`C26_push_back_violated`). -/
theorem C119_append_single_partial [Inhabited V] {h : Heap V} {o : O} {xs : List V} {cap D f : Nat} (r : L.Rep h o xs cap) (hf : Fresh h) (p : PipeC τ ρ)
    (hp : p.Fits D) (conv : ρ → Item V) (al : Nat → Bool) (t : τ) (hfuel : p.denote.length < f) (hpre : pushesPre L.cfg (xs, cap) (p.denote.map conv) al) :
    ∃ its, Meets p.Quiet conv p.denote its ∧ ∃ q, I.appendSingleC D f p conv h o al t = some q ∧ Good L h o q (specPushes L.cfg (xs, cap) its al) := by
  have hv := C116_view p hp t
  simp only [Impl.appendSingleC]
  cases e : p.build D t with
  | ub => rw [e] at hv; exact hv.elim
  | exn t1 =>
    rw [e] at hv
    refine ⟨[thrower], .first hv, _, rfl, ?_⟩
    simp only [specPushes, thrower, specPush_throws, if_true]
    exact good_same r true
  | ok B t1 =>
    rw [e] at hv
    exact good_pushAllC hv t1 hfuel r hf hpre

/-! ## Cases -/

/-- C119 is violated by `insert` of a view without elements that is not at the end, if there is room: the elements after the position are relocated onto
themselves (as `C25_insert_nothing_violated`). -/
theorem C119_insert_nothing_violated :
    (vec Nat 0 9).insertC 100 (.filter oddFn (.elements [2, 4])) none plain (aliasHeap 5).1 (aliasHeap 5).2 1 noFail 0 = .ub := by rfl

/-- The elements of a container after an operation, and whether it has thrown. -/
def shownC {O : Type} (I : Impl Nat O) (r : Out (Heap Nat × O)) : Option (List (Option Nat) × Bool) :=
  match r with
  | .ok q => (shown I (.ok q)).map (·, false)
  | .exn q => (shown I (.ok q)).map (·, true)
  | .ub => none

/-- Two odd numbers, in a view that has to be counted. Each pass calls the predicate three times. -/
def twoOdd : PipeC Nat Nat := .filter oddFn (.elements [1, 5, 6])

example : twoOdd.Fits 100 ∧ twoOdd.denote = [1, 5] := ⟨by simp [twoOdd, PipeC.Fits], rfl⟩

/-- The call 6 of the predicate throws, and `append` starts with each of the calls 0, ..., 4 in turn: no call throws; the last call of the second pass does, after both elements
have been copied; the second pass does when one element has been copied; at its begin; the first pass does. With room and without. -/
example :
    [9, 3].map (fun cap => [0, 1, 2, 3, 4].map fun t => shownC (vec Nat 0 99) ((vec Nat 0 99).appendC 100 twoOdd none plain (aliasHeap cap).1 (aliasHeap cap).2 noFail t)) =
      List.replicate 2 (some ([some 1, some 2, some 3, some 1, some 5], false) :: List.replicate 4 (some ([some 1, some 2, some 3], true))) := by decide +kernel

/-- The same with `insert` behind the first element. -/
example :
    [9, 3].map (fun cap => [0, 1, 2, 3, 4].map fun t => shownC (vec Nat 0 99) ((vec Nat 0 99).insertC 100 twoOdd none plain (aliasHeap cap).1 (aliasHeap cap).2 1 noFail t)) =
      List.replicate 2 (some ([some 1, some 1, some 5, some 2, some 3], false) :: List.replicate 4 (some ([some 1, some 2, some 3], true))) := by decide +kernel

/-- The same with a new vector, and with a conversion that throws. -/
example :
    [0, 1, 2, 3, 4].map (fun t => shownC (vec Nat 0 99) ((vec Nat 0 99).assignC 100 twoOdd none plain ⟨fun _ => none, 0⟩ { ptr := none, cap := 0, size := 0 } noFail t)) =
      some ([some 1, some 5], false) :: List.replicate 4 (some ([], true)) ∧
    shownC (vec Nat 0 99) ((vec Nat 0 99).appendC 100 twoOdd none (fun x => ⟨x, x == 5⟩) (aliasHeap 9).1 (aliasHeap 9).2 noFail 0) = some ([some 1, some 2, some 3], true) := by
  decide +kernel

/-- `append` to a container with five slots, of which three are used, of a view that has to be counted on the way; the call 6 of the predicate throws, and there is one
pass only. Then the same for an empty container that has one slot, which is not enough. -/
example :
    [3, 4, 5, 6].map (fun t => shownC (stat Nat 5) ((stat Nat 5).appendFixedC 100 twoOdd none plain ⟨fun _ => none, 0⟩ alias123 t)) =
      some ([some 1, some 2, some 3, some 1, some 5], false) :: List.replicate 3 (some ([some 1, some 2, some 3], true)) ∧
    [3, 4, 5, 6].map (fun t => shownC (stat Nat 1) ((stat Nat 1).appendFixedC 100 twoOdd none plain ⟨fun _ => none, 0⟩ ⟨fun _ => none, 0⟩ t)) =
      List.replicate 4 (some ([], true)) := by decide +kernel

/-- The same for a view that can be gone through only once: the elements before the exception stay. -/
example :
    [3, 4, 5, 6].map (fun t => ((vec Nat 0 99).appendSingleC 100 3 twoOdd plain (aliasHeap 4).1 (aliasHeap 4).2 noFail t).bind (shownC (vec Nat 0 99))) =
      [some ([some 1, some 2, some 3, some 1, some 5], false), some ([some 1, some 2, some 3, some 1, some 5], true), some ([some 1, some 2, some 3, some 1], true),
       some ([some 1, some 2, some 3], true)] := by decide +kernel

/-- The vector of the cases meets the hypotheses. -/
example : (Vec.lawful 0 9 (by decide) : Lawful (vec Nat 0 9) 0 _).Rep (aliasHeap 5).1 (aliasHeap 5).2 [1, 2, 3] 5 := aliasHeap_rep 5 (by decide) (by decide)

end Verif.Containers
