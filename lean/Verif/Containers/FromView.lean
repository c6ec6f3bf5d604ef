import Verif.Containers.Alias
import Verif.Views.Pipeline

/-!
# Containers filled from views

`append`, `insert`, and the constructors take any range. The elements are obtained one after the other through the iterators of the range, which can
throw when they are compared, dereferenced and advanced; converting an element to the element type of the container can throw as well. A range that knows
its size is copied at once, a forward range without a size is counted first and then copied in a second pass, and the elements of any other
range are pushed back one at a time (or checked against the capacity, if that cannot grow).
-/

namespace Verif.Containers

open Verif Verif.Views Lawful

variable {V O σ ρ : Type} {I : Impl V O} {mn : Nat} {mkA : Bool} {L : Lawful I mn mkA}

/-! ## Model -/

/-- A range that is given to a container. `single`: going through the range uses it up (it is an input range and not a forward range). -/
structure Source (σ ρ : Type) where
  R : Range σ ρ
  single : Bool

/-- `size_then_use_range` (source/containers/size_then_use_range.cpp 16-17). -/
def Source.known (S : Source σ ρ) : Bool := S.R.size?.isSome || !S.single

/-- `linear_size` (source/containers/linear_size.cpp 28-39, source/containers/algorithms/distance.cpp 19-30) of a range without a size: the number of elements
and the iterator at the end. `left` is how far the difference type still goes. Simplification: the number is not a bounded integer here (C94
has the same loop with bounded integers). -/
def countLoop (r : Rng σ ρ) : Nat → σ → Res (Nat × σ)
  | left, s =>
    match r.atEnd s with
    | .ub => .ub
    | .exn => .exn
    | .ok true => .ok (0, s)
    | .ok false =>
      match left with
      | 0 => .ub
      | left + 1 =>
        match r.next s with
        | .ub => .ub
        | .exn => .exn
        | .ok s' =>
          match countLoop r left s' with
          | .ub => .ub
          | .exn => .exn
          | .ok (n, e) => .ok (n + 1, e)

/-- `linear_size(source)`, and where the next pass through the range starts. `D` is the greatest difference. -/
def Source.linearSize (D : Nat) (S : Source σ ρ) : Res (Nat × σ) :=
  match S.R.size? with
  | some n => .ok (n, S.R.first)
  | none =>
    match countLoop S.R.ops D S.R.first with
    | .ub => .ub
    | .exn => .exn
    | .ok (n, e) => .ok (n, if S.single then e else S.R.first)

/-- source/containers/algorithms/copy_or_relocate_from.cpp 46-48 with source/containers/algorithms/uninitialized.cpp 45-48 `construct_at_output`: the loop
of `uninitialized_copy` over a range that is only read. `conv` converts an element, which can throw. The result is the slots and the output position. Every step
needs a slot, so there are at most `cap - out + 1` steps: the last one ends the loop or finds no slot. -/
def copyLoopR (r : Rng σ ρ) (conv : ρ → Item V) (cap : Nat) : Nat → Cells V → Nat → σ → Out (Cells V × Nat)
  | 0, _, _, _ => .ub
  | f + 1, m, out, s =>
    match r.atEnd s with
    | .ub => .ub
    | .exn => .exn (m, out)
    | .ok true => .ok (m, out)
    | .ok false =>
      match r.deref s with
      | .ub => .ub
      | .exn => .exn (m, out)
      | .ok x =>
        if (conv x).throws then .exn (m, out)
        else
          match construct cap m out (conv x).val with
          | none => .ub
          | some m' =>
            match r.next s with
            | .ub => .ub
            | .exn => .exn (m', out + 1)
            | .ok s' => copyLoopR r conv cap f m' (out + 1) s'

/-- source/containers/algorithms/uninitialized.cpp 54-63 `uninitialized_copy` of a range. The result is the slots and the end of what was written. -/
def uninitCopyR (r : Rng σ ρ) (conv : ρ → Item V) (cap : Nat) (m : Cells V) (out : Nat) (s : σ) : Out (Cells V × Nat) :=
  match copyLoopR r conv cap (cap - out + 1) m out s with
  | .ok (m', out') => .ok (m', out')
  | .exn (m', out') =>
    match destroyRange cap m' out (out' - out) with
    | some m'' => .exn (m'', out)
    | none => .ub
  | .ub => .ub

namespace Impl

/-- `uninitialized_copy_no_overlap(source, data() + pos)` on the object's own storage (source/containers/algorithms/uninitialized.cpp 77-96); the `memcpy` branch of contiguous sources
with trivially copyable elements has the same effect. The result has the number of elements written as well. -/
def copyRange (I : Impl V O) (r : Rng σ ρ) (conv : ρ → Item V) (s : σ) (h : Heap V) (o : O) (pos : Nat) : Out ((Heap V × O) × Nat) :=
  match uninitCopyR r conv (I.mem h o).1 (I.mem h o).2 pos s with
  | .ok (c, e) => .ok (I.put h o c, e - pos)
  | .exn (c, _) => .exn (I.put h o c, 0)
  | .ub => .ub

/-- The same without the number. -/
def copyElements (I : Impl V O) (r : Rng σ ρ) (conv : ρ → Item V) (s : σ) (h : Heap V) (o : O) (pos : Nat) : Out (Heap V × O) :=
  match I.copyRange r conv s h o pos with
  | .ok (x, _) => .ok x
  | .exn (x, _) => .exn x
  | .ub => .ub

/-- source/containers/append.cpp 40-54 (containers that can reserve): `n` elements that `copy` copies to a position. -/
def appendGrow (I : Impl V O) (h : Heap V) (o : O) (n : Nat) (copy : Heap V → O → Nat → Out (Heap V × O)) (al : Nat → Bool) : Out (Heap V × O) :=
  match I.capacity o with
  | none => .ub
  | some cap =>
    if I.size o + n ≤ cap then
      match copy h o (I.size o) with
      | .ub => .ub
      | .exn r => .exn r
      | .ok r => I.finish (some r) (I.size o + n)
    else
      match I.new h (al 0) with
      | .exn => .exn (h, o)
      | .ub => .ub
      | .ok (h1, t) =>
        match I.expForceReserve h1 t cap (I.size o + n) (al 1) with
        | .ub => .ub
        | .exn (h2, t2) => I.failTemp h2 t2 o
        | .ok (h2, t2) =>
          match copy h2 t2 (I.size o) with
          | .ub => .ub
          | .exn (h3, t3) => I.failTemp h3 t3 o
          | .ok (h3, t3) =>
            match I.relocInto h3 o t3 0 0 (I.size o) with
            | none => .ub
            | some (h4, o4, t4) => I.finish (I.takeOver h4 o4 t4) (I.size o + n)

/-- source/containers/append.cpp 74-82, source/containers/assign_to_empty.cpp 83-86 with source/containers/algorithms/copy_or_relocate_from.cpp 46-48: every element is pushed back. The
iterator is dereferenced in the constructor of the new element (source/containers/lazy_push_back.cpp 57). `none` if the loop has not ended after that many steps. -/
def pushAllFrom [Inhabited V] (I : Impl V O) (r : Rng σ ρ) (conv : ρ → Item V) : Nat → Heap V → O → (Nat → Bool) → σ → Option (Out (Heap V × O))
  | 0, _, _, _, _ => none
  | f + 1, h, o, al, s =>
    match r.atEnd s with
    | .ub => some .ub
    | .exn => some (.exn (h, o))
    | .ok true => some (.ok (h, o))
    | .ok false =>
      match r.deref s with
      | .ub => some .ub
      | .exn => some (I.pushBack h o (.lit default true) al)
      | .ok x =>
        match I.pushBack h o (.lit (conv x).val (conv x).throws) al with
        | .ub => some .ub
        | .exn q => some (.exn q)
        | .ok (h1, o1) =>
          match r.next s with
          | .ub => some .ub
          | .exn => some (.exn (h1, o1))
          | .ok s' => pushAllFrom I r conv f h1 o1 (fun k => al (k + 2)) s'

/-- source/containers/append.cpp 55-73 and source/containers/assign_to_empty.cpp 72-82 (containers that cannot reserve) with `check_size_not_greater_than`
(source/containers/take.cpp 187-216): a size is compared with the capacity, otherwise the elements are counted on the way. -/
def appendFixed (I : Impl V O) (D : Nat) (S : Source σ ρ) (conv : ρ → Item V) (h : Heap V) (o : O) : Out (Heap V × O) :=
  match I.capacity o with
  | none => .ub
  | some cap =>
    match S.R.size? with
    | some n =>
      if cap < n then .exn (h, o)
      else
        match I.copyRange S.R.ops conv S.R.first h o (I.size o) with
        | .ub => .ub
        | .exn (r, _) => .exn r
        | .ok (r, _) => I.finish (some r) (I.size o + n)
    | none =>
      match I.copyRange (countedThrow S.R.ops) conv (S.R.first, min cap D) h o (I.size o) with
      | .ub => .ub
      | .exn (r, _) => .exn r
      | .ok (r, n) => I.finish (some r) (I.size o + n)

/-- `append(target, source)` (source/containers/append.cpp 38-94). `f` bounds the steps of the loop that pushes back; `none` if it has not ended. -/
def appendRange [Inhabited V] (I : Impl V O) (D f : Nat) (S : Source σ ρ) (conv : ρ → Item V) (h : Heap V) (o : O) (al : Nat → Bool) : Option (Out (Heap V × O)) :=
  if I.reservable then
    if S.known then
      match S.linearSize D with
      | .ub => some .ub
      | .exn => some (.exn (h, o))
      | .ok (n, s) => some (I.appendGrow h o n (I.copyElements S.R.ops conv s) al)
    else I.pushAllFrom S.R.ops conv f h o al S.R.first
  else some (I.appendFixed D S conv h o)

/-- `assign_to_empty(target, source)` (source/containers/assign_to_empty.cpp 60-86), which the constructors from ranges call. Lines 63-64 (a size type that always
fits into the capacity) have the same effect as the other branches and are not modelled separately. -/
def assignRange [Inhabited V] (I : Impl V O) (D f : Nat) (S : Source σ ρ) (conv : ρ → Item V) (h : Heap V) (o : O) (al : Nat → Bool) : Option (Out (Heap V × O)) :=
  if I.size o ≠ 0 then some .ub
  else if I.reservable then
    if S.known then
      match S.linearSize D with
      | .ub => some .ub
      | .exn => some (.exn (h, o))
      | .ok (n, s) =>
        match I.capacity o with
        | none => some .ub
        | some cap =>
          if I.mx < n then some .ub
          else
            match (if cap < n then I.replaceEmpty h o n (al 0) else .ok (h, o)) with
            | .ub => some .ub
            | .exn r => some (.exn r)
            | .ok (h1, o1) =>
              match I.copyElements S.R.ops conv s h1 o1 0 with
              | .ub => some .ub
              | .exn r => some (.exn r)
              | .ok r => some (I.finish (some r) n)
    else I.pushAllFrom S.R.ops conv f h o al S.R.first
  else some (I.appendFixed D S conv h o)

/-- source/containers/insert.cpp 41-59 `insert_without_reallocation` of `n` elements that `copy` copies to a position. -/
def insertInPlaceBy (I : Impl V O) (h : Heap V) (o : O) (k n : Nat) (copy : Heap V → O → Nat → Out (Heap V × O)) : Out (Heap V × O) :=
  match I.modify h o fun cap m => relocBack cap m (I.size o) (I.size o + n) (I.size o - k) with
  | none => .ub
  | some (h1, o1) =>
    match copy h1 o1 k with
    | .ub => .ub
    | .exn (h2, o2) =>
      match I.modify h2 o2 fun cap m => relocFwd cap m (k + n) k (I.size o - k) with
      | none => .ub
      | some r => .exn r
    | .ok r => I.finish (some r) (I.size o + n)

/-- source/containers/insert.cpp 61-89 `insert_with_reallocation` of `n` elements that `copy` copies to a position. -/
def insertReallocBy (I : Impl V O) (h : Heap V) (o : O) (cap k n : Nat) (copy : Heap V → O → Nat → Out (Heap V × O)) (al : Nat → Bool) : Out (Heap V × O) :=
  match I.new h (al 0) with
  | .exn => .exn (h, o)
  | .ub => .ub
  | .ok (h1, t) =>
    match I.expForceReserve h1 t cap (I.size o + n) (al 1) with
    | .ub => .ub
    | .exn (h2, t2) => I.failTemp h2 t2 o
    | .ok (h2, t2) =>
      match copy h2 t2 k with
      | .ub => .ub
      | .exn (h3, t3) => I.failTemp h3 t3 o
      | .ok (h3, t3) =>
        match I.relocInto h3 o t3 0 0 k with
        | none => .ub
        | some (h4, o4, t4) =>
          match I.relocInto h4 o4 t4 k (k + n) (I.size o - k) with
          | none => .ub
          | some (h5, o5, t5) =>
            match I.setSize t5 (I.size o + n) with
            | none => .ub
            | some t6 =>
              match I.takeOver h5 o5 t6 with
              | none => .ub
              | some r => .ok r

/-- `insert(container, position, range)` (source/containers/insert.cpp 109-135) at position `k`. Line 116 counts the elements of every range, also of one that is used up by that. -/
def insertRange (I : Impl V O) (D : Nat) (S : Source σ ρ) (conv : ρ → Item V) (h : Heap V) (o : O) (k : Nat) (al : Nat → Bool) : Out (Heap V × O) :=
  if I.size o < k then .ub
  else
    match S.linearSize D with
    | .ub => .ub
    | .exn => .exn (h, o)
    | .ok (n, s) =>
      match I.capacity o with
      | none => .ub
      | some cap =>
        if I.size o + n ≤ cap then I.insertInPlaceBy h o k n (I.copyElements S.R.ops conv s)
        else if I.reservable then I.insertReallocBy h o cap k n (I.copyElements S.R.ops conv s) al
        else .exn (h, o)

end Impl

/-! ## Specification -/

/-- What a loop over the range with conversion of each element meets: `its` are the converted elements in order; the first of them that throws stands for
anything that throws at that point (the comparison with the end, dereferencing, converting, or advancing past the element before). What comes after that does not matter. -/
inductive Delivers (r : Rng σ ρ) (conv : ρ → Item V) : σ → List (Item V) → Prop
  | done {s : σ} : r.atEnd s = .ok true → Delivers r conv s []
  | step {s s' : σ} {x : ρ} {its : List (Item V)} : r.atEnd s = .ok false → r.deref s = .ok x → r.next s = .ok s' → Delivers r conv s' its →
      Delivers r conv s (conv x :: its)
  | convThrows {s : σ} {x : ρ} {its : List (Item V)} : r.atEnd s = .ok false → r.deref s = .ok x → (conv x).throws = true → Delivers r conv s (conv x :: its)
  | endThrows {s : σ} {it : Item V} {its : List (Item V)} : r.atEnd s = .exn → it.throws = true → Delivers r conv s (it :: its)
  | derefThrows {s : σ} {it : Item V} {its : List (Item V)} : r.atEnd s = .ok false → r.deref s = .exn → it.throws = true → Delivers r conv s (it :: its)
  | nextThrows {s : σ} {x : ρ} {it : Item V} {its : List (Item V)} : r.atEnd s = .ok false → r.deref s = .ok x → r.next s = .exn → it.throws = true →
      Delivers r conv s (conv x :: it :: its)

/-! ## The loops -/

theorem Visits.delivers {r : Rng σ ρ} (conv : ρ → Item V) : ∀ {xs : List ρ} {s : σ}, Visits r s xs → Delivers r conv s (xs.map conv)
  | [], _, h => .done h
  | _ :: _, _, ⟨h1, h2, _, h3, h4⟩ => .step h1 h2 h3 (Visits.delivers conv h4)

theorem Throws.delivers {r : Rng σ ρ} (conv : ρ → Item V) {it : Item V} (hit : it.throws = true) : ∀ {xs : List ρ} {s : σ}, Throws r s xs →
    Delivers r conv s (xs.map conv ++ [it])
  | [], _, h => .endThrows h hit
  | _ :: _, _, ⟨h1, h2, _, h3, h4⟩ => .step h1 h2 h3 (Throws.delivers conv hit h4)

theorem copyLoopR_eq {r : Rng σ ρ} {conv : ρ → Item V} {cap : Nat} {s : σ} {its : List (Item V)} (hd : Delivers r conv s its) :
    ∀ {f : Nat} {m : Cells V} {out : Nat}, cap - out < f → copyLoopR r conv cap f m out s = copyLoop cap m out its := by
  induction hd with
  | done h1 =>
    intro f m out hf
    obtain ⟨f, rfl⟩ : ∃ g, f = g + 1 := ⟨f - 1, by omega⟩
    simp only [copyLoopR, h1, copyLoop]
  | @step s s' x its h1 h2 h3 h4 ih =>
    intro f m out hf
    obtain ⟨f, rfl⟩ : ∃ g, f = g + 1 := ⟨f - 1, by omega⟩
    simp only [copyLoopR, h1, h2, h3, copyLoop]
    split
    · rfl
    · cases hc : construct cap m out (conv x).val with
      | none => rfl
      | some m' =>
        have : out < cap := by
          unfold construct at hc
          split at hc
          · rename_i h; exact h.1
          · cases hc
        exact ih (by omega)
  | convThrows h1 h2 h3 =>
    intro f m out hf
    obtain ⟨f, rfl⟩ : ∃ g, f = g + 1 := ⟨f - 1, by omega⟩
    simp only [copyLoopR, h1, h2, copyLoop, h3, if_true]
  | endThrows h1 h3 =>
    intro f m out hf
    obtain ⟨f, rfl⟩ : ∃ g, f = g + 1 := ⟨f - 1, by omega⟩
    simp only [copyLoopR, h1, copyLoop, h3, if_true]
  | derefThrows h1 h2 h3 =>
    intro f m out hf
    obtain ⟨f, rfl⟩ : ∃ g, f = g + 1 := ⟨f - 1, by omega⟩
    simp only [copyLoopR, h1, h2, copyLoop, h3, if_true]
  | nextThrows h1 h2 h3 h4 =>
    intro f m out hf
    obtain ⟨f, rfl⟩ : ∃ g, f = g + 1 := ⟨f - 1, by omega⟩
    simp only [copyLoopR, h1, h2, h3, copyLoop, h4, if_true]
    split
    · rfl
    · cases construct cap m out _ <;> rfl

/-- Going through the range with conversion of each element meets undefined behaviour before anything throws. -/
inductive Undefined (r : Rng σ ρ) (conv : ρ → Item V) : σ → Prop
  | atEnd {s : σ} : r.atEnd s = .ub → Undefined r conv s
  | deref {s : σ} : r.atEnd s = .ok false → r.deref s = .ub → Undefined r conv s
  | next {s : σ} {x : ρ} : r.atEnd s = .ok false → r.deref s = .ok x → (conv x).throws = false → r.next s = .ub → Undefined r conv s
  | later {s s' : σ} {x : ρ} : r.atEnd s = .ok false → r.deref s = .ok x → (conv x).throws = false → r.next s = .ok s' → Undefined r conv s' →
      Undefined r conv s

theorem copyLoopR_undefined {r : Rng σ ρ} {conv : ρ → Item V} {cap : Nat} {s : σ} (hu : Undefined r conv s) :
    ∀ (f : Nat) (m : Cells V) (out : Nat), copyLoopR r conv cap f m out s = .ub := by
  induction hu with
  | atEnd h1 => intro f m out; cases f <;> simp only [copyLoopR, h1]
  | deref h1 h2 => intro f m out; cases f <;> simp only [copyLoopR, h1, h2]
  | next h1 h2 h3 h4 =>
    intro f m out
    cases f
    · rfl
    · simp only [copyLoopR, h1, h2, h3, h4, Bool.false_eq_true, if_false]
      split <;> rfl
  | later h1 h2 h3 h4 _ ih =>
    intro f m out
    cases f
    · rfl
    · simp only [copyLoopR, h1, h2, h3, h4, Bool.false_eq_true, if_false, ih]
      split <;> rfl

/-- C103: undefined behaviour of the range is not hidden: copying its elements into storage is undefined too, whatever room there is. -/
theorem C103_undefined_range {r : Rng σ ρ} {conv : ρ → Item V} {s : σ} (hu : Undefined r conv s) (I : Impl V O) (h : Heap V) (o : O) (pos : Nat) :
    I.copyElements r conv s h o pos = .ub := by
  simp only [Impl.copyElements, Impl.copyRange, uninitCopyR, copyLoopR_undefined hu]

theorem copyLoop_end (cap : Nat) : ∀ (its : List (Item V)) (m : Cells V) (out : Nat) {c : Cells V} {e : Nat},
    copyLoop cap m out its = .ok (c, e) → e = out + its.length
  | [], m, out, c, e, h => by cases h; rfl
  | it :: its, m, out, c, e, h => by
    rw [copyLoop] at h
    split at h
    · cases h
    · cases hc : construct cap m out it.val with
      | none => rw [hc] at h; cases h
      | some m' =>
        rw [hc] at h
        have := copyLoop_end cap its m' (out + 1) h
        rw [List.length_cons]; omega

theorem copyRange_eq {r : Rng σ ρ} {conv : ρ → Item V} {s : σ} {its : List (Item V)} (hd : Delivers r conv s its) (h : Heap V) (o : O) (pos : Nat) :
    I.copyRange r conv s h o pos = match I.copyAt h o pos its with
      | .ok x => .ok (x, its.length)
      | .exn x => .exn (x, 0)
      | .ub => .ub := by
  simp only [Impl.copyRange, Impl.copyAt, uninitCopyR, uninitCopy, copyLoopR_eq hd (Nat.lt_succ_self _)]
  cases hc : copyLoop (I.mem h o).1 (I.mem h o).2 pos its with
  | ok x =>
    obtain ⟨c, e⟩ := x
    have := copyLoop_end _ its _ _ hc
    subst this
    simp only [Nat.add_sub_cancel_left]
  | exn x =>
    obtain ⟨c, e⟩ := x
    simp only
    cases destroyRange (I.mem h o).1 c pos (e - pos) <;> rfl
  | ub => rfl

theorem copyElements_eq {r : Rng σ ρ} {conv : ρ → Item V} {s : σ} {its : List (Item V)} (hd : Delivers r conv s its) :
    I.copyElements r conv s = fun h o pos => I.copyAt h o pos its := by
  funext h o pos
  rw [Impl.copyElements, copyRange_eq hd]
  cases I.copyAt h o pos its <;> rfl

theorem appendGrow_eq (hr : I.reservable = true) (h : Heap V) (o : O) (src : List (Item V)) (al : Nat → Bool) :
    I.appendGrow h o src.length (fun h o pos => I.copyAt h o pos src) al = I.append h o src al := by
  simp only [Impl.appendGrow, Impl.append, hr, if_true]
  rfl

theorem insertInPlaceBy_eq (h : Heap V) (o : O) (k : Nat) (src : List (Item V)) :
    I.insertInPlaceBy h o k src.length (fun h o pos => I.copyAt h o pos src) = I.insertInPlace h o k src := rfl

theorem insertReallocBy_eq (h : Heap V) (o : O) (cap k : Nat) (src : List (Item V)) (al : Nat → Bool) :
    I.insertReallocBy h o cap k src.length (fun h o pos => I.copyAt h o pos src) al = I.insertRealloc h o cap k src al := rfl

theorem delivers_counted {r : Rng σ ρ} {conv : ρ → Item V} {s : σ} {its : List (Item V)} (hd : Delivers r conv s its) :
    ∀ (c : Nat), Delivers (countedThrow r) conv (s, c) (checkedView c its) := by
  induction hd with
  | done h1 => intro c; cases c <;> exact .done (by simp only [countedThrow, h1]; rfl)
  | @step s s' x its h1 h2 h3 h4 ih =>
    intro c
    cases c with
    | zero => exact .endThrows (by simp [countedThrow, h1]) rfl
    | succ c => exact .step (s' := (s', c)) (by simp [countedThrow, h1]) h2 (by simp [countedThrow, h3]) (ih c)
  | convThrows h1 h2 h3 =>
    intro c
    cases c with
    | zero => exact .endThrows (by simp [countedThrow, h1]) rfl
    | succ c => exact .convThrows (by simp [countedThrow, h1]) h2 h3
  | endThrows h1 h3 =>
    intro c
    cases c with
    | zero => exact .endThrows (by simp only [countedThrow, h1]; rfl) rfl
    | succ c => exact .endThrows (by simp only [countedThrow, h1]; rfl) h3
  | derefThrows h1 h2 h3 =>
    intro c
    cases c with
    | zero => exact .endThrows (by simp [countedThrow, h1]) rfl
    | succ c => exact .derefThrows (by simp [countedThrow, h1]) h2 h3
  | @nextThrows s x it its h1 h2 h3 h4 =>
    intro c
    cases c with
    | zero => exact .endThrows (by simp [countedThrow, h1]) rfl
    | succ c =>
      cases c with
      | zero => exact .nextThrows (by simp [countedThrow, h1]) h2 (by simp only [countedThrow, h3]; rfl) rfl
      | succ c => exact .nextThrows (by simp [countedThrow, h1]) h2 (by simp only [countedThrow, h3]; rfl) h4

theorem copyLoop_noThrow (cap : Nat) : ∀ (its : List (Item V)) (m : Cells V) (out : Nat) {x : Cells V × Nat},
    copyLoop cap m out its = .ok x → noThrow its = true
  | [], _, _, _, _ => rfl
  | it :: its, m, out, x, h => by
    rw [copyLoop] at h
    split at h
    · cases h
    · rename_i ht
      cases hc : construct cap m out it.val with
      | none => rw [hc] at h; cases h
      | some m' =>
        rw [hc] at h
        have := copyLoop_noThrow cap its m' (out + 1) h
        simp only [noThrow, List.any_cons, Bool.not_eq_true', Bool.or_eq_false_iff] at this ⊢
        exact ⟨by simpa using ht, this⟩

theorem copyAt_noThrow {h : Heap V} {o : O} {pos : Nat} {its : List (Item V)} {x : Heap V × O} (e : I.copyAt h o pos its = .ok x) : noThrow its = true := by
  simp only [Impl.copyAt, uninitCopy] at e
  cases hc : copyLoop (I.mem h o).1 (I.mem h o).2 pos its with
  | ok y => exact copyLoop_noThrow _ its _ _ hc
  | exn y =>
    obtain ⟨a, b⟩ := y
    rw [hc] at e
    simp only at e
    cases hd : destroyRange (I.mem h o).1 a pos (b - pos) with
    | none => rw [hd] at e; cases e
    | some z => rw [hd] at e; cases e
  | ub => rw [hc] at e; cases e

theorem checkedView_min {its : List (Item V)} {cap D : Nat} (h : its.length ≤ D) : checkedView (min cap D) its = checkedView cap its := by
  rcases Nat.le_total cap D with hc | hc
  · rw [Nat.min_eq_left hc]
  · rw [Nat.min_eq_right hc, checkedView_fits _ _ h, checkedView_fits _ _ (by omega)]

/-- A range of which a loop meets these converted elements, if it is gone through at the beginning and if it is gone through after it was asked for its size; not more than
the difference type can count. -/
structure Source.Offers (D : Nat) (conv : ρ → Item V) (S : Source σ ρ) (its : List (Item V)) : Prop where
  visits : Delivers S.R.ops conv S.R.first its
  size : ∀ n, S.R.size? = some n → n = its.length
  small : its.length ≤ D
  counted : (S.R.size?.isSome || !S.single) = true → ∃ s, S.linearSize D = .ok (its.length, s) ∧ Delivers S.R.ops conv s its

theorem countLoop_eq {r : Rng σ ρ} : ∀ {xs : List ρ} {s : σ} {left : Nat}, Visits r s xs → xs.length ≤ left →
    ∃ e, countLoop r left s = .ok (xs.length, e) ∧ r.atEnd e = .ok true
  | [], s, left, h, _ => by
    rw [Visits] at h
    exact ⟨s, by cases left <;> rw [countLoop, h] <;> rfl, h⟩
  | x :: xs, s, 0, _, hl => by simp at hl
  | x :: xs, s, left + 1, ⟨h1, _, s', h3, h4⟩, hl => by
    obtain ⟨e, e1, e2⟩ := countLoop_eq (left := left) h4 (by simpa using hl)
    exact ⟨e, by simp only [countLoop, h1, h3, e1, List.length_cons], e2⟩

/-- More elements than the difference type can count: undefined. -/
theorem countLoop_ub {r : Rng σ ρ} : ∀ {xs : List ρ} {s : σ} {left : Nat}, Visits r s xs → left < xs.length → countLoop r left s = .ub
  | [], _, _, _, hl => by simp at hl
  | x :: xs, s, 0, ⟨h1, _⟩, _ => by simp only [countLoop, h1]
  | x :: xs, s, left + 1, ⟨h1, _, s', h3, h4⟩, hl => by
    simp only [countLoop, h1, h3, countLoop_ub (left := left) h4 (by simpa using hl)]

/-- A range with these elements offers them. -/
theorem Source.Offers.of {D : Nat} {S : Source σ ρ} {xs : List ρ} (h : S.R.Is xs) (conv : ρ → Item V) (hD : xs.length ≤ D) : S.Offers D conv (xs.map conv) where
  visits := Visits.delivers conv h.1
  size n hn := by rw [List.length_map]; exact h.2 n hn
  small := by rw [List.length_map]; exact hD
  counted hk := by
    cases hs : S.R.size? with
    | some n =>
      refine ⟨S.R.first, ?_, Visits.delivers conv h.1⟩
      simp only [Source.linearSize, hs, List.length_map, h.2 n hs]
    | none =>
      have hsingle : S.single = false := by simpa [hs] using hk
      obtain ⟨e, e1, -⟩ := countLoop_eq (left := D) h.1 hD
      refine ⟨S.R.first, ?_, Visits.delivers conv h.1⟩
      simp only [Source.linearSize, hs, e1, hsingle, List.length_map]
      rfl

/-! ## The operations -/

theorem appendFixed_eq (hr : I.reservable = false) {D : Nat} {S : Source σ ρ} {conv : ρ → Item V} {its : List (Item V)} (hO : S.Offers D conv its)
    (h : Heap V) (o : O) (al : Nat → Bool) :
    I.appendFixed D S conv h o = if S.R.size?.isSome then I.append h o its al else I.appendUnsized h o al its := by
  simp only [Impl.appendFixed, Impl.append, Impl.appendUnsized, hr]
  cases hs : S.R.size? with
  | some n =>
    have hn := hO.size n hs
    subst hn
    cases hc : I.capacity o with
    | none => rfl
    | some cap =>
      simp only [Option.isSome_some, if_true, Bool.false_eq_true, if_false, copyRange_eq hO.visits]
      split
      · rfl
      · cases I.copyAt h o (I.size o) its <;> rfl
  | none =>
    cases hc : I.capacity o with
    | none => rfl
    | some cap =>
      simp only [Option.isSome_none, Bool.false_eq_true, if_false, copyRange_eq (delivers_counted hO.visits _), checkedView_min hO.small]
      by_cases hl : its.length ≤ cap
      · rw [checkedView_fits _ _ hl]
        cases I.copyAt h o (I.size o) its <;> rfl
      · have hn := (checkedView_over its cap (by omega)).1
        cases hcp : I.copyAt h o (I.size o) (checkedView cap its) with
        | ok x => rw [copyAt_noThrow hcp] at hn; cases hn
        | exn x => rfl
        | ub => rfl

theorem specPush_throws (q : Cfg) (s : SV V) (v : V) (al : Nat → Bool) : specPush q s v true al = (s, true) := by
  unfold specPush
  split
  · rfl
  · split
    · rfl
    · simp

theorem pushBack_throws (h : Heap V) (o : O) (v w : V) (al : Nat → Bool) : I.pushBack h o (.lit v true) al = I.pushBack h o (.lit w true) al := rfl

theorem good_pushAllFrom [Inhabited V] {r : Rng σ ρ} {conv : ρ → Item V} {s : σ} {its : List (Item V)} (hd : Delivers r conv s its) :
    ∀ {f : Nat} {al : Nat → Bool} {h : Heap V} {o : O} {xs : List V} {cap : Nat}, its.length < f →
    L.Rep h o xs cap → Fresh h → pushesPre L.cfg (xs, cap) its al →
    ∃ q, I.pushAllFrom r conv f h o al s = some q ∧ Good L h o q (specPushes L.cfg (xs, cap) its al) := by
  induction hd with
  | done h1 =>
    intro f al h o xs cap hf rep _ _
    obtain ⟨f, rfl⟩ : ∃ g, f = g + 1 := ⟨f - 1, by omega⟩
    exact ⟨.ok (h, o), by simp only [Impl.pushAllFrom, h1], good_same rep false⟩
  | @step s s' x its h1 h2 h3 h4 ih =>
    intro f al h o xs cap hf rep hfr hp
    obtain ⟨f, rfl⟩ : ∃ g, f = g + 1 := ⟨f - 1, by omega⟩
    obtain ⟨h1', o1, e1, r1, f1, pr1⟩ := good_push rep hfr (.lit (conv x).val (conv x).throws) (conv x).val (conv x).throws al hp.1 (.inl rfl)
    simp only [Impl.pushAllFrom, h1, h2, specPushes, e1]
    cases hb : (specPush L.cfg (xs, cap) (conv x).val (conv x).throws al).2
    · simp only [Out.of_false, Bool.false_eq_true, if_false, h3]
      obtain ⟨q, e2, h2', o2, e3, r2, f2, pr2⟩ := ih (by simpa using hf) r1 (f1.fresh hfr) (hp.2 hb)
      exact ⟨q, e2, h2', o2, e3, r2, f1.trans f2, rule_push rep r1 pr1 pr2 (specPush_cap _ (xs, cap) _ _ _) (specPushes_cap _ _ _ _)⟩
    · simp only [Out.of_true, if_true]
      exact ⟨_, rfl, h1', o1, by rw [hb]; rfl, r1, f1, pr1⟩
  | @convThrows s x its h1 h2 h3 =>
    intro f al h o xs cap hf rep hfr hp
    obtain ⟨f, rfl⟩ : ∃ g, f = g + 1 := ⟨f - 1, by omega⟩
    have hg := good_push rep hfr (.lit (conv x).val (conv x).throws) (conv x).val (conv x).throws al hp.1 (.inl rfl)
    have hs : specPushes L.cfg (xs, cap) (conv x :: its) al = specPush L.cfg (xs, cap) (conv x).val (conv x).throws al := by
      simp only [specPushes, h3, specPush_throws, if_true]
    rw [hs]
    refine ⟨_, ?_, hg⟩
    obtain ⟨h1', o1, e1, r1, f1, pr1⟩ := hg
    simp only [Impl.pushAllFrom, h1, h2, e1]
    rw [h3, specPush_throws]
    rfl
  | @endThrows s it its h1 h3 =>
    intro f al h o xs cap hf rep hfr hp
    obtain ⟨f, rfl⟩ : ∃ g, f = g + 1 := ⟨f - 1, by omega⟩
    refine ⟨.exn (h, o), by simp only [Impl.pushAllFrom, h1], ?_⟩
    simp only [specPushes, h3, specPush_throws, if_true]
    exact good_same rep true
  | @derefThrows s it its h1 h2 h3 =>
    intro f al h o xs cap hf rep hfr hp
    obtain ⟨f, rfl⟩ : ∃ g, f = g + 1 := ⟨f - 1, by omega⟩
    refine ⟨_, by simp only [Impl.pushAllFrom, h1, h2]; rfl, ?_⟩
    have hg := good_push rep hfr (.lit it.val true) it.val true al hp.1 (.inl rfl)
    simp only [specPushes, h3, specPush_throws, if_true]
    rw [specPush_throws] at hg
    exact hg
  | @nextThrows s x it its h1 h2 h3 h4 =>
    intro f al h o xs cap hf rep hfr hp
    obtain ⟨f, rfl⟩ : ∃ g, f = g + 1 := ⟨f - 1, by omega⟩
    obtain ⟨h1', o1, e1, r1, f1, pr1⟩ := good_push rep hfr (.lit (conv x).val (conv x).throws) (conv x).val (conv x).throws al hp.1 (.inl rfl)
    simp only [Impl.pushAllFrom, h1, h2, specPushes, e1, h4, specPush_throws]
    cases hb : (specPush L.cfg (xs, cap) (conv x).val (conv x).throws al).2
    · simp only [Out.of_false, Bool.false_eq_true, if_false, h3, if_true]
      exact ⟨_, rfl, h1', o1, rfl, r1, f1, pr1⟩
    · simp only [Out.of_true, if_true]
      exact ⟨_, rfl, h1', o1, by rw [hb]; rfl, r1, f1, pr1⟩

/-- What `append` of a range means on the sequence of elements: all or nothing if the size is known before use, one element after the other otherwise. -/
def Source.appendOp (reservable : Bool) (S : Source σ ρ) (its : List (Item V)) (al : Nat → Bool) : GOp V :=
  if (if reservable then S.R.size?.isSome || !S.single else S.R.size?.isSome) then .append its al else .appendUnsized its al

/-- `append` of a range, which may throw anywhere. -/
theorem C103_append [Inhabited V] {h : Heap V} {o : O} {xs : List V} {cap : Nat} (r : L.Rep h o xs cap) (hf : Fresh h) {D f : Nat} {S : Source σ ρ} {conv : ρ → Item V}
    {its : List (Item V)} (hO : S.Offers D conv its) (hfuel : its.length < f) (al : Nat → Bool)
    (hp : (S.appendOp I.reservable its al).pre L.cfg (xs, cap)) :
    ∃ q, I.appendRange D f S conv h o al = some q ∧ Good L h o q ((S.appendOp I.reservable its al).spec L.cfg (xs, cap)) := by
  rw [Impl.appendRange]
  cases hr : I.reservable with
  | true =>
    rw [if_pos rfl]
    cases hk : S.known with
    | true =>
      have hk' : (S.R.size?.isSome || !S.single) = true := hk
      rw [if_pos rfl]
      obtain ⟨s, e, hd⟩ := hO.counted hk
      simp only [Source.appendOp, hr, hk', if_true] at hp ⊢
      simp only [e, copyElements_eq hd, appendGrow_eq hr]
      exact ⟨_, rfl, good_append r hf its al hp⟩
    | false =>
      have hk' : (S.R.size?.isSome || !S.single) = false := hk
      rw [if_neg (by simp)]
      have hcfg : L.cfg.reservable = true := hr
      simp only [Source.appendOp, hr, hk', if_true, Bool.false_eq_true, if_false, GOp.pre, GOp.spec, hcfg] at hp ⊢
      exact good_pushAllFrom hO.visits hfuel r hf hp
  | false =>
    rw [if_neg (by simp)]
    refine ⟨_, rfl, ?_⟩
    rw [appendFixed_eq hr hO h o al]
    simp only [Source.appendOp, hr, Bool.false_eq_true, if_false] at hp ⊢
    split
    · rename_i hs
      rw [if_pos hs] at hp
      exact good_append r hf its al hp
    · rename_i hs
      rw [if_neg hs] at hp
      exact good_appendUnsized r hf its al hp

/-- What the constructors from ranges and `assign_to_empty` mean on the sequence of elements. -/
def Source.assignOp (reservable : Bool) (S : Source σ ρ) (its : List (Item V)) (al : Nat → Bool) : GOp V :=
  if (if reservable then S.R.size?.isSome || !S.single else S.R.size?.isSome) then .assignTrivial its al else .appendUnsized its al

/-- `assign_to_empty` of a range, which may throw anywhere. -/
theorem C103_assign_to_empty [Inhabited V] {h : Heap V} {o : O} {cap : Nat} (r : L.Rep h o [] cap) (hf : Fresh h) {D f : Nat} {S : Source σ ρ} {conv : ρ → Item V}
    {its : List (Item V)} (hO : S.Offers D conv its) (hfuel : its.length < f) (al : Nat → Bool)
    (hp : (S.assignOp I.reservable its al).pre L.cfg ([], cap)) :
    ∃ q, I.assignRange D f S conv h o al = some q ∧ Good L h o q ((S.assignOp I.reservable its al).spec L.cfg ([], cap)) := by
  have hs0 : I.size o = 0 := r.1.2.2
  rw [Impl.assignRange, if_neg (by simp [hs0])]
  cases hr : I.reservable with
  | true =>
    rw [if_pos rfl]
    cases hk : S.known with
    | true =>
      have hk' : (S.R.size?.isSome || !S.single) = true := hk
      rw [if_pos rfl]
      obtain ⟨s, e, hd⟩ := hO.counted hk
      simp only [Source.assignOp, hr, hk', if_true] at hp ⊢
      have hg := good_assignToEmpty r hf its al hp
      refine ⟨_, ?_, hg⟩
      simp only [e, copyElements_eq hd, Impl.assignToEmpty, hs0, ne_eq, not_true, if_false, hr, if_true]
      cases I.capacity o with
      | none => rfl
      | some c =>
        simp only
        split
        · rfl
        · cases (if c < its.length then I.replaceEmpty h o its.length (al 0) else Out.ok (h, o)) with
          | ub => rfl
          | exn q => rfl
          | ok q =>
            obtain ⟨h1, o1⟩ := q
            simp only
            cases I.copyAt h1 o1 0 its <;> rfl
    | false =>
      have hk' : (S.R.size?.isSome || !S.single) = false := hk
      rw [if_neg (by simp)]
      have hcfg : L.cfg.reservable = true := hr
      simp only [Source.assignOp, hr, hk', if_true, Bool.false_eq_true, if_false, GOp.pre, GOp.spec, hcfg] at hp ⊢
      exact good_pushAllFrom hO.visits hfuel r hf hp
  | false =>
    rw [if_neg (by simp)]
    refine ⟨_, rfl, ?_⟩
    rw [appendFixed_eq hr hO h o al]
    simp only [Source.assignOp, hr, Bool.false_eq_true, if_false] at hp ⊢
    split
    · rename_i hs
      rw [if_pos hs] at hp
      have hg := good_assignToEmpty r hf its al hp
      have e : I.append h o its al = I.assignToEmpty h o its al := by
        simp only [Impl.append, Impl.assignToEmpty, hs0, ne_eq, not_true, if_false, hr, Bool.false_eq_true, Nat.zero_add]
      rw [e]
      exact hg
    · rename_i hs
      rw [if_neg hs] at hp
      exact good_appendUnsized r hf its al hp

/-- `insert` of a range whose size is known before use, which may throw anywhere. -/
theorem C103_insert_partial {h : Heap V} {o : O} {xs : List V} {cap k : Nat} (r : L.Rep h o xs cap) (hf : Fresh h) {D : Nat} {S : Source σ ρ} {conv : ρ → Item V}
    {its : List (Item V)} (hO : S.Offers D conv its) (hk : (S.R.size?.isSome || !S.single) = true) (al : Nat → Bool) (hpos : k ≤ xs.length) (hne : its = [] → k = xs.length) :
    Good L h o (I.insertRange D S conv h o k al) (specInsert L.cfg (xs, cap) k (its.map (·.val)) (!its.any (·.throws)) al) := by
  obtain ⟨s, e, hd⟩ := hO.counted hk
  have hg := good_insert r hf its al hpos hne
  have e2 : I.insertRange D S conv h o k al = I.insert h o k its al := by
    simp only [Impl.insertRange, Impl.insert, e, copyElements_eq hd, insertInPlaceBy_eq, insertReallocBy_eq]
    rfl
  rw [e2]
  exact hg

/-- Going through the range throws, at a comparison or an advance, after at most `n` advances. -/
inductive Stumbles (r : Rng σ ρ) : Nat → σ → Prop
  | compare {n s} : r.atEnd s = .exn → Stumbles r n s
  | advance {n s} : r.atEnd s = .ok false → r.next s = .exn → Stumbles r (n + 1) s
  | later {n s s'} : r.atEnd s = .ok false → r.next s = .ok s' → Stumbles r n s' → Stumbles r (n + 1) s

theorem countLoop_exn {r : Rng σ ρ} {n : Nat} {s : σ} (h : Stumbles r n s) : countLoop r n s = .exn := by
  induction h with
  | @compare n s h => cases n <;> simp only [countLoop, h]
  | advance h1 h2 => simp only [countLoop, h1, h2]
  | later h1 h2 _ ih => simp only [countLoop, h1, h2, ih]

/-- If the range has to be counted before it is used and throws meanwhile, nothing has happened. -/
theorem C103_count_throws [Inhabited V] {h : Heap V} {o : O} {D f k : Nat} {S : Source σ ρ} {conv : ρ → Item V} (al : Nat → Bool) (hz : S.R.size? = none)
    (hn : S.single = false) (he : Stumbles S.R.ops D S.R.first) (hr : I.reservable = true) (hpos : k ≤ I.size o) :
    I.appendRange D f S conv h o al = some (.exn (h, o)) ∧ I.insertRange D S conv h o k al = .exn (h, o) ∧
      (I.size o = 0 → I.assignRange D f S conv h o al = some (.exn (h, o))) := by
  have he : S.linearSize D = .exn := by simp only [Source.linearSize, hz, countLoop_exn he]
  have hk : S.known = true := by simp [Source.known, hn]
  refine ⟨?_, ?_, fun h0 => ?_⟩
  · simp only [Impl.appendRange, hr, hk, if_true, he]
  · simp only [Impl.insertRange, if_neg (Nat.not_lt.2 hpos), he]
  · simp only [Impl.assignRange, h0, ne_eq, not_true, if_false, hr, hk, if_true, he]

/-- Counting the elements of the range goes wrong: there are more than `n` of them (the difference type ends there), or a comparison or an advance is undefined. -/
inductive Uncountable (r : Rng σ ρ) : Nat → σ → Prop
  | compare {n s} : r.atEnd s = .ub → Uncountable r n s
  | tooMany {s} : r.atEnd s = .ok false → Uncountable r 0 s
  | advance {n s} : r.atEnd s = .ok false → r.next s = .ub → Uncountable r (n + 1) s
  | later {n s s'} : r.atEnd s = .ok false → r.next s = .ok s' → Uncountable r n s' → Uncountable r (n + 1) s

theorem countLoop_uncountable {r : Rng σ ρ} {n : Nat} {s : σ} (h : Uncountable r n s) : countLoop r n s = .ub := by
  induction h with
  | @compare n s h => cases n <;> simp only [countLoop, h]
  | tooMany h => simp only [countLoop, h]
  | advance h1 h2 => simp only [countLoop, h1, h2]
  | later h1 h2 _ ih => simp only [countLoop, h1, h2, ih]

/-- If counting the elements of the range is undefined, so is everything that has to count them first. -/
theorem C103_undefined_count [Inhabited V] {h : Heap V} {o : O} {D f k : Nat} {S : Source σ ρ} {conv : ρ → Item V} (al : Nat → Bool) (hz : S.R.size? = none)
    (hn : S.single = false) (he : Uncountable S.R.ops D S.R.first) :
    I.insertRange D S conv h o k al = .ub ∧ (I.reservable = true → I.appendRange D f S conv h o al = some .ub ∧ I.assignRange D f S conv h o al = some .ub) := by
  have he : S.linearSize D = .ub := by simp only [Source.linearSize, hz, countLoop_uncountable he]
  have hk : S.known = true := by simp [Source.known, hn]
  refine ⟨?_, fun hr => ⟨?_, ?_⟩⟩
  · simp only [Impl.insertRange, he]; split <;> rfl
  · simp only [Impl.appendRange, hr, hk, if_true, he]
  · simp only [Impl.assignRange, hr, hk, if_true, he]; split <;> rfl

/-! ## Pipelines of views -/

/-- A view as the source of a container. `single`: for views of which only the next element is asked for, whether going through them uses them up. -/
def _root_.Verif.Views.Built.source (single : Bool) : (B : Built ρ) → Source B.It ρ
  | .ra σ r first size => ⟨(Built.ra σ r first size).range, false⟩
  | .fwd σ r first => ⟨(Built.fwd σ r first).range, false⟩
  | .inp σ R => ⟨R, single⟩

theorem Built.source_is {B : Built ρ} {xs : List ρ} (h : B.Is xs) (single : Bool) : (B.source single).R.Is xs := by
  have := h.range
  cases B <;> exact this

/-- Elements that are copied without exceptions. -/
def plain (v : V) : Item V := ⟨v, false⟩

theorem plain_any (ys : List V) : (ys.map plain).any (·.throws) = false := by induction ys <;> simp_all [plain]

theorem plain_vals (ys : List V) : (ys.map plain).map (·.val) = ys := by induction ys <;> simp_all [plain]

/-- No allocation fails. -/
def noFail : Nat → Bool := fun _ => false

/-- Pushing back elements when there is room or the container can grow far enough. -/
theorem specPushes_fits {q : Cfg} (hr : q.reservable = true) : ∀ (ys : List V) (xs : List V) (cap : Nat), xs.length ≤ cap → (2 * (xs.length + ys.length) ≤ q.mx) →
    pushesPre q (xs, cap) (ys.map plain) noFail ∧ ∃ cap', specPushes q (xs, cap) (ys.map plain) noFail = ((xs ++ ys, cap'), false)
  | [], xs, cap, _, _ => ⟨trivial, cap, by rw [List.append_nil]; rfl⟩
  | y :: ys, xs, cap, hc, hm => by
    rw [List.length_cons] at hm
    have h1 : ∃ cap', xs.length + 1 ≤ cap' ∧ specPush q (xs, cap) y false noFail = ((xs ++ [y], cap'), false) := by
      unfold specPush
      rw [if_neg (by omega)]
      by_cases hl : xs.length < cap
      · exact ⟨cap, hl, by rw [if_pos hl]; rfl⟩
      · exact ⟨max 1 (2 * cap), by omega, by rw [if_neg hl]; simp [hr, noFail]⟩
    obtain ⟨cap', hc', e⟩ := h1
    obtain ⟨p2, cap2, e2⟩ := specPushes_fits hr ys (xs ++ [y]) cap' (by simpa using hc') (by simp only [List.length_append, List.length_singleton]; omega)
    refine ⟨⟨fun _ h3 _ => by simp only at h3 ⊢; omega, fun _ => ?_⟩, cap2, ?_⟩
    · show pushesPre q (specPush q (xs, cap) y false noFail).1 (ys.map plain) noFail
      rw [e]; exact p2
    · show (if (specPush q (xs, cap) y false noFail).2 = true then specPush q (xs, cap) y false noFail
        else specPushes q (specPush q (xs, cap) y false noFail).1 (ys.map plain) noFail) = _
      rw [e, if_neg (by simp), e2, List.append_assoc, List.singleton_append]

theorem specInsert_fits {q : Cfg} {xs ys : List V} {cap k : Nat} (hm : q.reservable = true → 2 * (xs.length + ys.length) ≤ q.mx)
    (hn : q.reservable = false → xs.length + ys.length ≤ cap) :
    ∃ cap', specInsert q (xs, cap) k ((ys.map plain).map (·.val)) (!(ys.map plain).any (·.throws)) noFail = ((xs.take k ++ ys ++ xs.drop k, cap'), false) := by
  rw [plain_any, plain_vals]
  unfold specInsert
  by_cases hl : xs.length + ys.length ≤ cap
  · exact ⟨cap, by rw [if_pos hl]; rfl⟩
  · cases hr : q.reservable with
    | false => exact absurd (hn hr) hl
    | true =>
      have := hm hr
      refine ⟨max (xs.length + ys.length) (2 * cap), ?_⟩
      rw [if_neg hl, if_neg]
      simp [noFail]
      omega

/-- A container that can grow far enough, or that has room: what is appended from a pipeline of views are the elements of the pipeline. -/
theorem C103_append_pipeline [Inhabited V] {h : Heap V} {o : O} {xs ys : List V} {cap D f : Nat} (r : L.Rep h o xs cap) (hf : Fresh h) {p : Pipe V} {B : Built V}
    (hfit : p.Fits D) (hb : p.build D = some (.ok B)) (hd : p.denote = some ys) (hD : ys.length ≤ D) (hfuel : ys.length < f) (single : Bool)
    (hm : I.reservable = true → 2 * (xs.length + ys.length) ≤ I.mx) (hn : I.reservable = false → xs.length + ys.length ≤ cap) :
    ∃ h' o' cap', I.appendRange D f (B.source single) plain h o noFail = some (.ok (h', o')) ∧ L.Rep h' o' (xs ++ ys) cap' := by
  have hB : B.Is ys := by
    have := C102_elements p hfit _ hb
    rw [hd] at this
    obtain ⟨B', e, h⟩ := this
    cases e; exact h
  have hO := Source.Offers.of (Built.source_is hB single) plain hD
  have key : ((B.source single).appendOp I.reservable (ys.map plain) noFail).pre L.cfg (xs, cap) ∧
      ∃ cap', ((B.source single).appendOp I.reservable (ys.map plain) noFail).spec L.cfg (xs, cap) = ((xs ++ ys, cap'), false) := by
    have hins : ∃ cap', specInsert L.cfg (xs, cap) xs.length ((ys.map plain).map (·.val)) (!(ys.map plain).any (·.throws)) noFail = ((xs ++ ys, cap'), false) := by
      obtain ⟨cap', e⟩ := specInsert_fits (q := L.cfg) (xs := xs) (ys := ys) (cap := cap) (k := xs.length) hm hn
      exact ⟨cap', by rw [e]; simp⟩
    unfold Source.appendOp
    by_cases hc : (if I.reservable = true then (B.source single).R.size?.isSome || !(B.source single).single else (B.source single).R.size?.isSome) = true
    · rw [if_pos hc]
      refine ⟨?_, hins⟩
      intro hr
      left
      rw [List.length_map]
      exact hn hr
    · rw [if_neg hc]
      simp only [GOp.pre, GOp.spec]
      cases hr : L.cfg.reservable with
      | true =>
        simp only [if_true]
        exact specPushes_fits hr ys xs cap r.2 (hm hr)
      | false =>
        simp only [Bool.false_eq_true, if_false]
        exact ⟨.inl (by rw [List.length_map]; exact hn hr), hins⟩
  obtain ⟨hp, cap', hs⟩ := key
  obtain ⟨q, e, h', o', e2, r2, -⟩ := C103_append r hf hO (by rw [List.length_map]; exact hfuel) noFail hp
  rw [hs] at e2 r2
  exact ⟨h', o', cap', by rw [e, e2]; rfl, r2⟩

/-- The same for constructing a container from a pipeline. -/
theorem C103_construct_pipeline [Inhabited V] {h : Heap V} {o : O} {ys : List V} {cap D f : Nat} (r : L.Rep h o [] cap) (hf : Fresh h) {p : Pipe V} {B : Built V}
    (hfit : p.Fits D) (hb : p.build D = some (.ok B)) (hd : p.denote = some ys) (hD : ys.length ≤ D) (hfuel : ys.length < f) (single : Bool)
    (hm : I.reservable = true → 2 * ys.length ≤ I.mx) (hn : I.reservable = false → ys.length ≤ cap) :
    ∃ h' o' cap', I.assignRange D f (B.source single) plain h o noFail = some (.ok (h', o')) ∧ L.Rep h' o' ys cap' := by
  have hB : B.Is ys := by
    have := C102_elements p hfit _ hb
    rw [hd] at this
    obtain ⟨B', e, h⟩ := this
    cases e; exact h
  have hO := Source.Offers.of (Built.source_is hB single) plain hD
  have key : ((B.source single).assignOp I.reservable (ys.map plain) noFail).pre L.cfg ([], cap) ∧
      ∃ cap', ((B.source single).assignOp I.reservable (ys.map plain) noFail).spec L.cfg ([], cap) = ((ys, cap'), false) := by
    unfold Source.assignOp
    by_cases hc : (if I.reservable = true then (B.source single).R.size?.isSome || !(B.source single).single else (B.source single).R.size?.isSome) = true
    · rw [if_pos hc]
      refine ⟨fun hr => ⟨?_, fun _ => rfl⟩, max cap ys.length, ?_⟩
      · rw [List.length_map]; have := hm hr; show ys.length ≤ I.mx; omega
      · simp only [GOp.spec, plain_any, plain_vals, List.length_map]
        rw [if_neg]
        · simp
        · cases hr : L.cfg.reservable with
          | true => simp
          | false => simpa using hn hr
    · rw [if_neg hc]
      simp only [GOp.pre, GOp.spec]
      cases hr : L.cfg.reservable with
      | true =>
        simp only [if_true]
        have := specPushes_fits hr ys [] cap r.2 (by rw [List.length_nil, Nat.zero_add]; exact hm hr)
        rwa [List.nil_append] at this
      | false =>
        simp only [Bool.false_eq_true, if_false]
        obtain ⟨cap', e⟩ := specInsert_fits (q := L.cfg) (xs := []) (ys := ys) (cap := cap) (k := 0)
          (by rw [List.length_nil, Nat.zero_add]; exact hm) (by rw [List.length_nil, Nat.zero_add]; exact hn)
        exact ⟨.inr trivial, cap', by rw [List.length_nil, e]; simp⟩
  obtain ⟨hp, cap', hs⟩ := key
  obtain ⟨q, e, h', o', e2, r2, -⟩ := C103_assign_to_empty r hf hO (by rw [List.length_map]; exact hfuel) noFail hp
  rw [hs] at e2 r2
  exact ⟨h', o', cap', by rw [e, e2]; rfl, r2⟩

/-- The same for inserting the elements of a pipeline, which must be one that can be gone through twice or has a size. -/
theorem C103_insert_pipeline_partial {h : Heap V} {o : O} {xs ys : List V} {cap D k : Nat} (r : L.Rep h o xs cap) (hf : Fresh h) {p : Pipe V} {B : Built V}
    (hfit : p.Fits D) (hb : p.build D = some (.ok B)) (hd : p.denote = some ys) (hD : ys.length ≤ D) (single : Bool) (hk : ((B.source single).R.size?.isSome || !(B.source single).single) = true)
    (hpos : k ≤ xs.length) (hne : ys = [] → k = xs.length)
    (hm : I.reservable = true → 2 * (xs.length + ys.length) ≤ I.mx) (hn : I.reservable = false → xs.length + ys.length ≤ cap) :
    ∃ h' o' cap', I.insertRange D (B.source single) plain h o k noFail = .ok (h', o') ∧ L.Rep h' o' (xs.take k ++ ys ++ xs.drop k) cap' := by
  have hB : B.Is ys := by
    have := C102_elements p hfit _ hb
    rw [hd] at this
    obtain ⟨B', e, h⟩ := this
    cases e; exact h
  have hO := Source.Offers.of (Built.source_is hB single) plain hD
  obtain ⟨cap', hs⟩ := specInsert_fits (q := L.cfg) (xs := xs) (ys := ys) (cap := cap) (k := k) hm hn
  obtain ⟨h', o', e2, r2, -⟩ := C103_insert_partial r hf hO hk noFail hpos (by simpa using hne)
  rw [hs] at e2 r2
  exact ⟨h', o', cap', by rw [e2]; rfl, r2⟩

/-! ## A range that is used up by counting, and examples -/

/-- A range without a size that gives the numbers `n - 1`, ..., `0`. -/
def countdown : Range Nat Nat := ⟨⟨fun n => .ok (n == 0), fun n => if n = 0 then .ub else .ok (n - 1), fun n => if n = 0 then .ub else .ok (n - 1)⟩, 2, none⟩

theorem countdown_is : countdown.Is [1, 0] := ⟨⟨rfl, rfl, _, rfl, rfl, rfl, _, rfl, rfl⟩, fun _ h => by cases h⟩

/-- C103 is violated by `insert` of a range that has no size and is used up by going through it (insert.cpp 116 has no `size_then_use_range`): the elements are
counted, room is made for them, and then there are none left to be copied. The container says that it has elements which were never constructed. The same
range that can be gone through twice is inserted, and `append` of the one that cannot works. -/
theorem C103_insert_violated :
    shown (vec Nat 0 9) ((vec Nat 0 9).insertRange 100 ⟨countdown, true⟩ plain (aliasHeap 5).1 (aliasHeap 5).2 1 noFail) =
      some [some 1, none, none, some 2, some 3] ∧
    shown (vec Nat 0 9) ((vec Nat 0 9).insertRange 100 ⟨countdown, false⟩ plain (aliasHeap 5).1 (aliasHeap 5).2 1 noFail) =
      some [some 1, some 1, some 0, some 2, some 3] ∧
    ((vec Nat 0 9).appendRange 100 3 ⟨countdown, true⟩ plain (aliasHeap 5).1 (aliasHeap 5).2 noFail).bind (shown (vec Nat 0 9)) =
      some [some 1, some 2, some 3, some 1, some 0] :=
  ⟨by decide +kernel, by decide +kernel, by decide +kernel⟩

/-- A range that throws when it is advanced for the second time. -/
def stumbling : Range Nat Nat := ⟨⟨fun n => .ok (n == 0), fun n => .ok n, fun n => if n = 3 then .exn else .ok (n - 1)⟩, 4, none⟩

/-- What is delivered before and when it throws. -/
theorem stumbling_delivers : Delivers stumbling.ops plain 4 [plain 4, plain 3, ⟨0, true⟩] :=
  .step rfl rfl (s' := 3) rfl (.nextThrows rfl rfl rfl rfl)

/-- The exception leaves the elements so far in the container, or none of them if the range is counted first (which throws). A fixed capacity gets none of them. -/
example :
    (match (vec Nat 0 9).appendRange 100 5 ⟨stumbling, true⟩ plain (aliasHeap 3).1 (aliasHeap 3).2 noFail with
      | some (.exn r) => shown (vec Nat 0 9) (.ok r) | _ => none) = some [some 1, some 2, some 3, some 4, some 3] ∧
    (match (vec Nat 0 9).appendRange 100 5 ⟨stumbling, false⟩ plain (aliasHeap 3).1 (aliasHeap 3).2 noFail with
      | some (.exn r) => shown (vec Nat 0 9) (.ok r) | _ => none) = some [some 1, some 2, some 3] ∧
    (match (stat Nat 5).appendRange 100 5 ⟨stumbling, false⟩ plain ⟨fun _ => none, 0⟩ ⟨fun k => [1, 2, 3][k]?, 3⟩ noFail with
      | some (.exn r) => shown (stat Nat 5) (.ok r) | _ => none) = some [some 1, some 2, some 3] := by decide +kernel

/-- A range whose last element has been destroyed. -/
example : Undefined (⟨fun n => .ok (n == 0), fun n => if n = 1 then .ub else .ok n, fun n => .ok (n - 1)⟩ : Rng Nat Nat) plain 3 :=
  .later rfl rfl rfl rfl (.later rfl rfl rfl rfl (.deref rfl rfl))

/-- More elements than differences. -/
example : Uncountable (⟨fun n => .ok (n == 0), .ok, fun n => .ok (n - 1)⟩ : Rng Nat Nat) 2 3 := .later rfl rfl (.later rfl rfl (.tooMany rfl))

example : Stumbles stumbling.ops 100 stumbling.first := .later rfl rfl (.advance rfl rfl)

example : (⟨stumbling, true⟩ : Source Nat Nat).Offers 100 plain [plain 4, plain 3, ⟨0, true⟩] :=
  ⟨stumbling_delivers, (fun _ h => by cases h), by decide, (fun h => by cases h)⟩

/-- A pipeline that meets the hypotheses: it has no size and can be gone through twice. -/
example : ∃ B, (Pipe.filter (· % 2 = 1) (.map (· + 1) (.elements [0, 5, 2, 4]))).build 100 = some (.ok B) ∧
    ((B.source false).R.size?.isSome || !(B.source false).single) = true ∧ ((Pipe.filter (· % 2 = 1) (.map (· + 1) (.elements [0, 5, 2, 4]))) : Pipe Nat).denote = some [1, 3, 5] :=
  ⟨_, rfl, rfl, rfl⟩

end Verif.Containers
