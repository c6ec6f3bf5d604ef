import Verif.Containers.SboSize
import Verif.Containers.StaticVector

/-!
# `sbo_vector` (property C30)

source/containers/sbo_vector.cpp 165-368. `sc` is the capacity of the small buffer
(`small_t::capacity()`, lines 94-99), `mx` the maximum size, `W` the width of the widest
integer type; all are arbitrary.
-/

namespace Verif.Containers

open Verif Impl Lawful

variable {V : Type}

/-- The union of lines 361-364: which member is alive, and its data. `small_type`, lines 119-120:
storage and first bytes of the size. `large_type`, lines 160-162: pointer, capacity, and first
bytes of the size. -/
inductive SboU (V : Type) where
  | small (cell : Cells V) (first : List Nat)
  | large (b cap : Nat) (first : List Nat)

/-- `state`, lines 355-366: the union, the seven bits of the size, and the flag. -/
structure Sbo (V : Type) where
  u : SboU V
  last : Nat
  isLarge : Bool

namespace Sbo

/-- `construct<small_t>()` (`sbo_vector.cpp` 270, 310, 332, 338, 357): no elements, and the first bytes of
the size are zero. -/
def emptySmall (V : Type) (W sc : Nat) : SboU V := .small (fun _ => none) (List.replicate (sizeBytes W sc - 1) 0)

/-- `size()`, `sbo_vector.cpp` 239-245; `none` for undefined behaviour (reading the member of the union that
is not alive, or a violated `assume_in_range`). -/
def size? (sc mx : Nat) (o : Sbo V) : Option Nat :=
  match o.isLarge, o.u with
  | false, .small _ f => recombineSize sc f o.last
  | true, .large _ _ f => recombineSize mx f o.last
  | _, _ => none

/-- `capacity()`, `sbo_vector.cpp` 249-251, 94-99, 140-142. -/
def capacity (sc mx : Nat) (o : Sbo V) : Option Nat :=
  match o.isLarge, o.u with
  | false, .small _ _ => some sc
  | true, .large _ c _ => if sc < c ∧ c ≤ mx then some c else none
  | _, _ => none

/-- The slots that `data()` (`sbo_vector.cpp` 232-237) refers to. -/
def mem (sc : Nat) (h : Heap V) (o : Sbo V) : Nat × Cells V :=
  match o.isLarge, o.u with
  | false, .small c _ => (sc, c)
  | true, .large b _ _ =>
    match h.blk b with
    | none => (0, fun _ => none)
    | some B => (B.cap, B.cell)
  | _, _ => (0, fun _ => none)

/-- Changing those slots. -/
def put (h : Heap V) (o : Sbo V) (c : Cells V) : Heap V × Sbo V :=
  match o.isLarge, o.u with
  | false, .small _ f => (h, { o with u := .small c f })
  | true, .large b _ _ =>
    match h.blk b with
    | none => (h, o)
    | some B => (⟨upd h.blk b (some ⟨B.cap, c⟩), h.next⟩, o)
  | _, _ => (h, o)

/-- `set_size(n)`, `sbo_vector.cpp` 253-264 with 82-87: `assume_in_range`, and the assertion at the end. -/
def setSize (W sc mx : Nat) (o : Sbo V) (n : Nat) : Option (Sbo V) :=
  match o.isLarge, o.u with
  | false, .small c _ =>
    if n ≤ sc then
      let o' : Sbo V := { o with u := .small c (splitSize W sc n).1, last := (splitSize W sc n).2 }
      if size? sc mx o' = some n then some o' else none
    else none
  | true, .large b c _ =>
    if n ≤ mx then
      let o' : Sbo V := { o with u := .large b c (splitSize W mx n).1, last := (splitSize W mx n).2 }
      if size? sc mx o' = some n then some o' else none
    else none
  | _, _ => none

/-- `sbo_vector.cpp` 180, 356-360. -/
def new (W sc : Nat) (h : Heap V) : Res (Heap V × Sbo V) := .ok (h, ⟨emptySmall V W sc, 0, false⟩)

/-- `deallocate_large()`, `sbo_vector.cpp` 324-328 and 295-297. -/
def deallocate (sc mx : Nat) (h : Heap V) (o : Sbo V) : Option (Heap V) :=
  match o.isLarge, o.u with
  | false, _ => some h
  | true, .large b c _ => if sc < c ∧ c ≤ mx then h.free b c else none
  | true, .small _ _ => none

/-- No element is alive in the union itself: replacing the member of the union, or ending the
life of the object, would otherwise leave an element that is never destroyed. (The code does not
test it; where it is false the model reports undefined behaviour.) -/
def isClean (sc : Nat) (o : Sbo V) : Bool :=
  match o.u with
  | .small c _ => decide (∀ k < sc, (c k).isNone)
  | .large _ _ _ => true

/-- `relocate_to_large(n)`, `sbo_vector.cpp` 342-353. -/
def relocateToLarge (W sc mx : Nat) (h : Heap V) (o : Sbo V) (n : Nat) (fails : Bool) : Out (Heap V × Sbo V) :=
  if n ≤ sc ∨ mx < n then .ub
  else if fails then .exn (h, o)
  else
    match size? sc mx o with
    | none => .ub
    | some s =>
      let a := h.alloc n
      match relocTo (mem sc h o).1 n (mem sc h o).2 (fun _ => none) 0 0 s with
      | none => .ub
      | some (from', to') =>
        let r := put ⟨upd a.1.blk a.2 (some ⟨n, to'⟩), a.1.next⟩ o from'
        match deallocate sc mx r.1 r.2 with
        | none => .ub
        | some h' =>
          if isClean sc r.2 then .ok (h', ⟨.large a.2 n (splitSize W mx s).1, (splitSize W mx s).2, true⟩) else .ub

/-- `relocate_to_small()`, `sbo_vector.cpp` 304-315. -/
def relocateToSmall (W sc mx : Nat) (h : Heap V) (o : Sbo V) : Out (Heap V × Sbo V) :=
  match o.isLarge, o.u with
  | false, _ => .ok (h, o)
  | true, .small _ _ => .ub
  | true, .large b c _ =>
    match size? sc mx o with
    | none => .ub
    | some s =>
      match relocTo (mem sc h o).1 sc (mem sc h o).2 (fun _ => none) 0 0 s with
      | none => .ub
      | some (from', to') =>
        match (put h o from').1.free b c with
        | none => .ub
        | some h' =>
          if s ≤ sc then .ok (h', ⟨.small to' (splitSize W sc s).1, (splitSize W sc s).2, false⟩) else .ub

/-- `reserve(n)`, `sbo_vector.cpp` 283-292. -/
def reserve (W sc mx : Nat) (h : Heap V) (o : Sbo V) (n : Nat) (fails : Bool) : Out (Heap V × Sbo V) :=
  if mx < n then .ub
  else
    match capacity sc mx o with
    | none => .ub
    | some c =>
      if n ≤ c then .ok (h, o)
      else if n ≤ sc then relocateToSmall W sc mx h o
      else relocateToLarge W sc mx h o n fails

/-- `replace_empty_allocation(n)`, `sbo_vector.cpp` 266-282: the old block is released before the new one is
allocated, and nothing is recorded until then. -/
def replaceEmpty (W sc mx : Nat) (h : Heap V) (o : Sbo V) (n : Nat) (fails : Bool) : Out (Heap V × Sbo V) :=
  if size? sc mx o ≠ some 0 ∨ mx < n then .ub
  else
    match deallocate sc mx h o with
    | none => .ub
    | some h1 =>
      if !isClean sc o then .ub
      else if n ≤ sc then
        let o' : Sbo V := ⟨emptySmall V W sc, o.last, false⟩
        if size? sc mx o' = some 0 then .ok (h1, o') else .ub
      else if fails then .exn (h1, o)
      else
        let o' : Sbo V := ⟨.large (h1.alloc n).2 n (List.replicate (sizeBytes W mx - 1) 0), o.last, true⟩
        if size? sc mx o' = some 0 then .ok ((h1.alloc n).1, o') else .ub

/-- `destroy_range(*this)` (`sbo_vector.cpp` 300). -/
def destroyAll (sc mx : Nat) (h : Heap V) (o : Sbo V) : Option (Heap V × Sbo V) :=
  match size? sc mx o with
  | none => none
  | some n => (destroyRange (mem sc h o).1 (mem sc h o).2 0 n).map (put h o)

/-- `destroy()`, `sbo_vector.cpp` 299-302. The object and its flag stay as they are. -/
def destroy' (sc mx : Nat) (h : Heap V) (o : Sbo V) : Option (Heap V × Sbo V) :=
  match destroyAll sc mx h o with
  | none => none
  | some (h1, o1) => (deallocate sc mx h1 o1).map fun h2 => (h2, o1)

/-- `move_assign_to_empty(other)`, `sbo_vector.cpp` 330-340: the target and the source afterwards. -/
def moveToEmpty (W sc mx : Nat) (o t : Sbo V) : Option (Sbo V × Sbo V) :=
  if !isClean sc o then none
  else
    match t.isLarge, t.u with
    | false, .small c f =>
      match size? sc mx t with
      | none => none
      | some n =>
        match relocTo sc sc c (fun _ => none) 0 0 n with
        | none => none
        | some (a, b) =>
          if isClean sc { t with u := .small a f } then
            some (⟨.small b f, t.last, t.isLarge⟩, ⟨emptySmall V W sc, 0, false⟩)
          else none
    | true, .large b c f => some (⟨.large b c f, t.last, t.isLarge⟩, ⟨emptySmall V W sc, 0, false⟩)
    | _, _ => none

/-- Move assignment between two objects, `sbo_vector.cpp` 218-226. -/
def moveAssign (W sc mx : Nat) (h : Heap V) (o t : Sbo V) : Option (Heap V × Sbo V × Sbo V) :=
  match destroy' sc mx h o with
  | none => none
  | some (h1, o1) => (moveToEmpty W sc mx o1 t).map fun (o', t') => (h1, o', t')

/-- The destructor, `sbo_vector.cpp` 228-230. -/
def dtor (sc mx : Nat) (h : Heap V) (o : Sbo V) : Option (Heap V) :=
  match destroy' sc mx h o with
  | none => none
  | some (h1, o1) => if isClean sc o1 then some h1 else none

/-- The heap block that the object refers to. -/
def ptr (o : Sbo V) : Option Nat :=
  match o.u with
  | .small _ _ => none
  | .large b _ _ => some b

end Sbo

/-- `sbo_vector<T, ...>` with small capacity `sc` and maximum size `mx`. -/
def sbo (V : Type) (W sc mx : Nat) : Impl V (Sbo V) where
  mx := mx
  reservable := true
  ptr := Sbo.ptr
  size o := (Sbo.size? sc mx o).getD 0
  capacity := Sbo.capacity sc mx
  mem := Sbo.mem sc
  put := Sbo.put
  setSize := Sbo.setSize W sc mx
  new h _ := Sbo.new W sc h
  reserve := Sbo.reserve W sc mx
  replaceEmpty := Sbo.replaceEmpty W sc mx
  moveAssign := Sbo.moveAssign W sc mx
  dtor := Sbo.dtor sc mx

namespace Sbo

variable {W sc mx : Nat}

/-- What the code needs of its template arguments. -/
structure Params (W sc mx : Nat) : Prop where
  lt : sc < mx
  small : SizeOk W sc
  large : SizeOk W mx

/-- A small-buffer vector that can be used: the flag agrees with the member of the union that is
alive, the size is encoded for that member, and it has a heap block exactly when it is large. -/
def wf (W sc mx : Nat) (h : Heap V) (o : Sbo V) : Prop :=
  (∃ c n, o = ⟨.small c (splitSize W sc n).1, (splitSize W sc n).2, false⟩ ∧ n ≤ sc) ∨
  (∃ b cap n B, o = ⟨.large b cap (splitSize W mx n).1, (splitSize W mx n).2, true⟩ ∧ n ≤ mx ∧
    h.blk b = some B ∧ B.cap = cap ∧ sc < cap ∧ cap ≤ mx)

theorem split_zero (h : SizeOk W sc) : splitSize W sc 0 = (List.replicate (sizeBytes W sc - 1) 0, 0) := by
  have hz : ∀ k, toBytes k 0 = List.replicate k 0 := by
    intro k
    induction k with
    | zero => rfl
    | succ k ih => simp [toBytes, ih, List.replicate_succ]
  simp only [splitSize, hz, List.take_replicate, Prod.mk.injEq]
  constructor
  · congr 1; omega
  · simp only [List.getD_eq_getElem?_getD, List.getElem?_replicate]
    split <;> rfl

theorem size_small (hp : Params W sc mx) {c : Cells V} {n : Nat} (hn : n ≤ sc) :
    size? sc mx (⟨.small c (splitSize W sc n).1, (splitSize W sc n).2, false⟩ : Sbo V) = some n :=
  C29_round_trip hp.small hn

theorem size_large (hp : Params W sc mx) {b cap n : Nat} (hn : n ≤ mx) :
    size? sc mx (⟨.large b cap (splitSize W mx n).1, (splitSize W mx n).2, true⟩ : Sbo V) = some n :=
  C29_round_trip hp.large hn

theorem isClean_none {f : List Nat} {l : Nat} {b : Bool} : isClean sc (⟨.small (fun _ => none) f, l, b⟩ : Sbo V) = true := by
  simp [isClean]

theorem mem_large {h : Heap V} {b cap l : Nat} {f : List Nat} {B : Blk V} (hb : h.blk b = some B) :
    mem sc h (⟨.large b cap f, l, true⟩ : Sbo V) = (B.cap, B.cell) := by simp only [mem, hb]

theorem put_large {h : Heap V} {b cap l : Nat} {f : List Nat} {B : Blk V} (hb : h.blk b = some B) (c : Cells V) :
    put h (⟨.large b cap f, l, true⟩ : Sbo V) c =
      (⟨upd h.blk b (some ⟨B.cap, c⟩), h.next⟩, ⟨.large b cap f, l, true⟩) := by simp only [put, hb]

theorem emptySmall_eq (hp : Params W sc mx) :
    (⟨emptySmall V W sc, 0, false⟩ : Sbo V) = ⟨.small (fun _ => none) (splitSize W sc 0).1, (splitSize W sc 0).2, false⟩ := by
  rw [split_zero hp.small]; rfl

theorem frame_same {h : Heap V} {G G' : Nat → Prop} (h1 : ∀ b, ¬ G b) (h2 : ∀ b, ¬ G' b) : Frame G h G' h :=
  (Frame.refl (fun _ => False) h).congr (fun b => ⟨False.elim, h1 b⟩) (fun b => ⟨False.elim, h2 b⟩)

/-- Destroying the elements, and releasing the block. -/
theorem destroy_ok (hp : Params W sc mx) {h : Heap V} {o : Sbo V} {xs : List V} (w : wf W sc mx h o)
    (hm : (mem sc h o).2 = fun k => xs[k]?) (hs : (size? sc mx o).getD 0 = xs.length) (hl : xs.length ≤ (mem sc h o).1) :
    ∃ h1 o1, destroy' sc mx h o = some (h1, o1) ∧ isClean sc o1 = true ∧
      Frame ((sbo V W sc mx).own o) h (fun _ => False) h1 := by
  have hd : destroyRange (mem sc h o).1 (mem sc h o).2 0 xs.length = some (fun _ => none) := by
    have hm' : (mem sc h o).2 = cells xs := hm
    rw [hm', destroyRange_eq _ _ _ _ (by omega) (fun j _ g => cells_live (by omega))]
    have := cleared_cells xs 0 (by omega)
    simp only [Nat.sub_zero, List.take_zero, cells_nil] at this
    rw [this]
  rcases w with ⟨c, n, rfl, hn⟩ | ⟨b, cap, n, B, rfl, hn, hb, hc, h4, h5⟩
  · rw [size_small hp hn, Option.getD_some] at hs
    subst hs
    refine ⟨h, ⟨.small (fun _ => none) (splitSize W sc xs.length).1, (splitSize W sc xs.length).2, false⟩, ?_, ?_, ?_⟩
    · simp only [destroy', destroyAll, size_small hp hn, hd, Option.map_some, put, deallocate]
    · simp [isClean]
    · exact frame_same (fun b => by simp [Impl.own, sbo, ptr]) (fun b => id)
  · rw [size_large hp hn, Option.getD_some] at hs
    subst hs
    have hne : h.blk b ≠ none := by rw [hb]; simp
    have hfree := free_eq (h := ⟨upd h.blk b (some ⟨B.cap, fun _ => none⟩), h.next⟩) (b := b) (n := cap)
      (upd_same _ _ _) hc (fun _ _ => rfl)
    refine ⟨⟨upd (upd h.blk b (some ⟨B.cap, fun _ => none⟩)) b none, h.next⟩,
      ⟨.large b cap (splitSize W mx xs.length).1, (splitSize W mx xs.length).2, true⟩, ?_, rfl, ?_⟩
    · simp only [destroy', destroyAll, size_large hp hn, hd, Option.map_some, put_large hb, deallocate]
      rw [if_pos ⟨h4, h5⟩, hfree]; rfl
    · have := (frame_set hne ⟨B.cap, fun _ => none⟩).trans frame_free
      exact this.congr (fun c => by simp [Impl.own, sbo, ptr, eq_comm]) (fun c => Iff.rfl)

/-- `sbo_vector` provides what the generic algorithms rely on. -/
def lawful (hp : Params W sc mx) : Lawful (sbo V W sc mx) sc false where
  wf := wf W sc mx
  wf_cap := by
    intro h o w
    show capacity sc mx o = some (mem sc h o).1
    rcases w with ⟨c, n, rfl, hn⟩ | ⟨b, cap, n, B, rfl, hn, hb, hc, h4, h5⟩
    · rfl
    · rw [mem_large hb]
      simp only [capacity]
      rw [if_pos ⟨h4, h5⟩, hc]
  wf_range := by
    intro h o w
    show sc ≤ (mem sc h o).1 ∧ (mem sc h o).1 ≤ mx
    have := hp.lt
    rcases w with ⟨c, n, rfl, hn⟩ | ⟨b, cap, n, B, rfl, hn, hb, hc, h4, h5⟩
    · exact ⟨Nat.le_refl _, Nat.le_of_lt hp.lt⟩
    · rw [mem_large hb]; simp only; omega
  wf_owned := by
    intro h o b w hb
    have hb : ptr o = some b := hb
    rcases w with ⟨c, n, rfl, hn⟩ | ⟨b', cap, n, B, rfl, hn, hb', hc, h4, h5⟩
    · cases hb
    · cases hb; rw [hb']; simp
  wf_keep := by
    intro h h' o w hk
    show wf W sc mx h' o ∧ mem sc h' o = mem sc h o
    rcases w with ⟨c, n, rfl, hn⟩ | ⟨b, cap, n, B, rfl, hn, hb, hc, h4, h5⟩
    · exact ⟨.inl ⟨c, n, rfl, hn⟩, rfl⟩
    · have := hk b rfl
      rw [hb] at this
      exact ⟨.inr ⟨b, cap, n, B, rfl, hn, this, hc, h4, h5⟩, by rw [mem_large this, mem_large hb]⟩
  put_law := by
    intro h o c w
    show wf W sc mx (put h o c).1 (put h o c).2 ∧ mem sc (put h o c).1 (put h o c).2 = ((mem sc h o).1, c) ∧
      (size? sc mx (put h o c).2).getD 0 = (size? sc mx o).getD 0 ∧ ptr (put h o c).2 = ptr o ∧
      Frame _ h _ (put h o c).1
    rcases w with ⟨c', n, rfl, hn⟩ | ⟨b, cap, n, B, rfl, hn, hb, hc, h4, h5⟩
    · exact ⟨.inl ⟨c, n, rfl, hn⟩, rfl, rfl, rfl, Frame.refl _ _⟩
    · rw [put_large hb]
      have hne : h.blk b ≠ none := by rw [hb]; simp
      refine ⟨.inr ⟨b, cap, n, _, rfl, hn, upd_same _ _ _, hc, h4, h5⟩, ?_, rfl, rfl, ?_⟩
      · rw [mem_large (h := ⟨upd h.blk b (some ⟨B.cap, c⟩), h.next⟩) (upd_same _ _ _), mem_large hb]
      · exact (frame_set hne _).congr (fun c => by simp [Impl.own, sbo, ptr, eq_comm])
          (fun c => by simp [Impl.own, sbo, ptr, eq_comm])
  size_law := by
    intro h o n w hn
    have hn : n ≤ (mem sc h o).1 := hn
    show ∃ o', setSize W sc mx o n = some o' ∧ wf W sc mx h o' ∧ mem sc h o' = mem sc h o ∧
      (size? sc mx o').getD 0 = n ∧ ptr o' = ptr o
    rcases w with ⟨c', m, rfl, hm⟩ | ⟨b, cap, m, B, rfl, hm, hb, hc, h4, h5⟩
    · have hn : n ≤ sc := hn
      refine ⟨⟨.small c' (splitSize W sc n).1, (splitSize W sc n).2, false⟩, ?_, .inl ⟨c', n, rfl, hn⟩, rfl, ?_, rfl⟩
      · simp only [setSize, if_pos hn, size_small hp hn, if_true]
      · rw [size_small hp hn]; rfl
    · rw [mem_large hb] at hn
      have hn : n ≤ mx := by simp only at hn; omega
      refine ⟨⟨.large b cap (splitSize W mx n).1, (splitSize W mx n).2, true⟩, ?_,
        .inr ⟨b, cap, n, B, rfl, hn, hb, hc, h4, h5⟩, rfl, ?_, rfl⟩
      · simp only [setSize, if_pos hn, size_large hp hn, if_true]
      · rw [size_large hp hn]; rfl
  mk_exn := by intro h hm; cases hm
  mk_ok := by
    intro h f _ _
    refine ⟨h, ⟨emptySmall V W sc, 0, false⟩, rfl, ?_, rfl, ?_, ?_, fun _ => rfl⟩
    · rw [emptySmall_eq hp]; exact .inl ⟨_, 0, rfl, Nat.zero_le _⟩
    · show (size? sc mx (⟨emptySmall V W sc, 0, false⟩ : Sbo V)).getD 0 = 0
      rw [emptySmall_eq hp, size_small hp (Nat.zero_le _)]; rfl
    · exact frame_same (fun b => id) (fun b => by simp [Impl.own, sbo, ptr, emptySmall])
  reserve_none := by
    intro h o n f w hn
    have hn : n ≤ (mem sc h o).1 := hn
    show reserve W sc mx h o n f = _
    have := hp.lt
    rcases w with ⟨c, m, rfl, hm⟩ | ⟨b, cap, m, B, rfl, hm, hb, hc, h4, h5⟩
    · have hn : n ≤ sc := hn
      simp only [reserve, capacity, if_pos hn, if_neg (show ¬ mx < n by omega)]
    · rw [mem_large hb] at hn
      simp only at hn
      simp only [reserve, capacity, if_neg (show ¬ mx < n by omega), if_pos (And.intro h4 h5), if_pos (show n ≤ cap by omega)]
  reserve_exn := by
    intro h o n _ w hn hx
    have hn : (mem sc h o).1 < n := hn
    have hx : n ≤ mx := hx
    show reserve W sc mx h o n true = _
    rcases w with ⟨c, m, rfl, hm⟩ | ⟨b, cap, m, B, rfl, hm, hb, hc, h4, h5⟩
    · have hn : sc < n := hn
      simp only [reserve, capacity, if_neg (show ¬ mx < n by omega), if_neg (show ¬ n ≤ sc by omega), relocateToLarge,
        if_neg (show ¬ (n ≤ sc ∨ mx < n) by omega), if_true]
    · rw [mem_large hb] at hn
      simp only at hn
      simp only [reserve, capacity, if_neg (show ¬ mx < n by omega), if_pos (And.intro h4 h5),
        if_neg (show ¬ n ≤ cap by omega), if_neg (show ¬ n ≤ sc by omega), relocateToLarge,
        if_neg (show ¬ (n ≤ sc ∨ mx < n) by omega), if_true]
  reserve_ok := by
    intro h o n xs _ hf w hm hs hl hn hx
    have hn : (mem sc h o).1 < n := hn
    have hx : n ≤ mx := hx
    have hm : (mem sc h o).2 = cells xs := hm
    have hs : (size? sc mx o).getD 0 = xs.length := hs
    have hl : xs.length ≤ (mem sc h o).1 := hl
    have hrel := relocTo_eq (mem sc h o).1 n xs (cells xs) (fun _ => none) 0 0 (by omega) (by omega)
      (by intro j hj; simp [cells, hj]) (fun _ _ _ => rfl)
    rw [written_none, show cleared (cells xs) 0 xs.length = fun _ => none by
      have := cleared_cells xs 0 (by omega); simpa [cells_nil] using this, ← hm] at hrel
    have hnx : h.blk h.next = none := hf _ (Nat.le_refl _)
    have fa := frame_alloc h n hf
    have fs : Frame (fun c => c = h.next) (h.alloc n).1 (fun c => c = h.next)
        ⟨upd (h.alloc n).1.blk h.next (some ⟨n, (mem sc h o).2⟩), h.next + 1⟩ :=
      frame_set (h := (h.alloc n).1) (b := h.next) (by rw [show (h.alloc n).1.blk h.next = _ from upd_same _ _ _]; simp) _
    have f01 := fa.trans fs
    have hxl : xs.length ≤ mx := by omega
    show ∃ h' o', reserve W sc mx h o n false = _ ∧ wf W sc mx h' o' ∧ mem sc h' o' = _ ∧ (size? sc mx o').getD 0 = _ ∧ _
    rcases w with ⟨c, m, rfl, hm'⟩ | ⟨b, cap, m, B, rfl, hm', hb, hc, h4, h5⟩
    · rw [size_small hp hm', Option.getD_some] at hs
      subst hs
      have hn' : sc < n := hn
      refine ⟨⟨upd (h.alloc n).1.blk h.next (some ⟨n, c⟩), h.next + 1⟩,
        ⟨.large h.next n (splitSize W mx xs.length).1, (splitSize W mx xs.length).2, true⟩, ?_,
        .inr ⟨_, _, _, _, rfl, hxl, upd_same _ _ _, rfl, hn', hx⟩, ?_, ?_, ?_⟩
      · simp only [reserve, capacity, if_neg (show ¬ mx < n by omega), if_neg (show ¬ n ≤ sc by omega), relocateToLarge,
          if_neg (show ¬ (n ≤ sc ∨ mx < n) by omega), Bool.false_eq_true, if_false, size_small hp hm', hrel]
        simp only [put, deallocate, isClean_none, if_true]
        rfl
      · rw [mem_large (upd_same _ _ _)]
        show (n, c) = (n, cells xs)
        rw [show c = cells xs from hm]
      · rw [size_large hp hxl]; rfl
      · exact f01.congr (fun c => by simp [Impl.own, sbo, ptr]) (fun c => by simp [Impl.own, sbo, ptr, eq_comm])
    · rw [size_large hp hm', Option.getD_some] at hs
      subst hs
      rw [mem_large hb] at hn hm
      simp only at hn hm
      have hbn : b ≠ h.next := by rintro rfl; rw [hnx] at hb; cases hb
      rw [mem_large hb] at hrel f01
      simp only at hrel f01
      have hb2 : (⟨upd (h.alloc n).1.blk h.next (some ⟨n, B.cell⟩), h.next + 1⟩ : Heap V).blk b = some B := by
        show upd (upd h.blk h.next _) h.next _ b = _
        rw [upd_other _ _ hbn, upd_other _ _ hbn, hb]
      have hnb : h.next ≠ b := fun e => hbn e.symm
      have hlast : upd (upd (upd (upd h.blk h.next (some ⟨n, fun _ => none⟩)) h.next (some ⟨n, B.cell⟩)) b
          (some ⟨B.cap, fun _ => none⟩)) b none h.next = some ⟨n, B.cell⟩ := by
        rw [upd_other _ _ hnb, upd_other _ _ hnb, upd_same]
      refine ⟨⟨upd (upd (upd (upd h.blk h.next (some ⟨n, fun _ => none⟩)) h.next (some ⟨n, B.cell⟩)) b
          (some ⟨B.cap, fun _ => none⟩)) b none, h.next + 1⟩,
        ⟨.large h.next n (splitSize W mx xs.length).1, (splitSize W mx xs.length).2, true⟩, ?_,
        .inr ⟨_, _, _, _, rfl, hxl, hlast, rfl, by omega, hx⟩, ?_, ?_, ?_⟩
      · simp only [reserve, capacity, if_neg (show ¬ mx < n by omega), if_pos (And.intro h4 h5),
          if_neg (show ¬ n ≤ cap by omega), if_neg (show ¬ n ≤ sc by omega), relocateToLarge,
          if_neg (show ¬ (n ≤ sc ∨ mx < n) by omega), Bool.false_eq_true, if_false, size_large hp hm', mem_large hb, hrel]
        rw [show (h.alloc n).2 = h.next from rfl, show (h.alloc n).1.next = h.next + 1 from rfl, put_large hb2]
        simp only [deallocate, isClean]
        rw [if_pos (And.intro h4 h5), free_eq (B := ⟨B.cap, fun _ => none⟩) (upd_same _ _ _) hc (fun _ _ => rfl)]
        rfl
      · rw [mem_large hlast, hm]; rfl
      · rw [size_large hp hxl]; rfl
      · have fput := frame_set (h := ⟨upd (h.alloc n).1.blk h.next (some ⟨n, B.cell⟩), h.next + 1⟩) (b := b)
          (by rw [hb2]; simp) ⟨B.cap, fun _ => none⟩
        have g1 := f01.more (fun c => c = b)
        have g2 := (fput.trans frame_free).more (fun c => c = h.next)
        have g3 := (g1.congr (K' := fun c => c = b ∨ c = h.next) (fun c => Iff.rfl) (fun c => Or.comm)).trans g2
        exact g3.congr (fun c => by simp [Impl.own, sbo, ptr, eq_comm]) (fun c => by simp [Impl.own, sbo, ptr, eq_comm])
  replace_ok := by
    intro h o n _ hf w hm hs hn hx
    have hm : (mem sc h o).2 = fun _ => none := hm
    have hs : (size? sc mx o).getD 0 = 0 := hs
    have hn : (mem sc h o).1 < n := hn
    have hx : n ≤ mx := hx
    show ∃ h' o', replaceEmpty W sc mx h o n false = _ ∧ wf W sc mx h' o' ∧ mem sc h' o' = _ ∧ (size? sc mx o').getD 0 = _ ∧ _
    have hz := split_zero hp.large
    have hlarge : ∀ (h1 : Heap V), (⟨.large (h1.alloc n).2 n (List.replicate (sizeBytes W mx - 1) 0), 0, true⟩ : Sbo V) =
        ⟨.large h1.next n (splitSize W mx 0).1, (splitSize W mx 0).2, true⟩ := by
      intro h1; rw [hz]; rfl
    have key : ∀ h1, deallocate sc mx h o = some h1 → o.last = 0 → isClean sc o = true → size? sc mx o = some 0 → sc < n →
        Fresh h1 → Frame ((sbo V W sc mx).own o) h (fun _ => False) h1 →
        ∃ h' o', replaceEmpty W sc mx h o n false = .ok (h', o') ∧ wf W sc mx h' o' ∧ mem sc h' o' = (n, fun _ => none) ∧
          (size? sc mx o').getD 0 = 0 ∧ Frame ((sbo V W sc mx).own o) h ((sbo V W sc mx).own o') h' := by
      intro h1 e1 e2 e3 e4 e5 hf1 fr
      refine ⟨(h1.alloc n).1, ⟨.large h1.next n (splitSize W mx 0).1, (splitSize W mx 0).2, true⟩, ?_,
        .inr ⟨_, _, _, _, rfl, Nat.zero_le _, upd_same _ _ _, rfl, e5, hx⟩, ?_, ?_, ?_⟩
      · simp only [replaceEmpty, e1, e2, e3, e4, Bool.not_true, Bool.false_eq_true, if_false, hlarge,
          size_large hp (Nat.zero_le mx), if_true]
        rw [if_neg (by simp; omega), if_neg (by omega)]
      · exact mem_large (h := (h1.alloc n).1) (B := ⟨n, fun _ => none⟩) (upd_same _ _ _)
      · rw [size_large hp (Nat.zero_le _)]; rfl
      · exact fr.trans ((frame_alloc h1 n hf1).congr (fun _ => Iff.rfl) (fun c => by
          simp [Impl.own, sbo, ptr, eq_comm]))
    rcases w with ⟨c, m, rfl, hm'⟩ | ⟨b, cap, m, B, rfl, hm', hb, hc, h4, h5⟩
    · rw [size_small hp hm', Option.getD_some] at hs
      subst hs
      exact key h rfl (by rw [split_zero hp.small]) (by
        have hm : c = fun _ => none := hm
        simp [isClean, hm]) (size_small hp hm') hn hf
        (frame_same (fun b => by simp [Impl.own, sbo, ptr]) (fun b => id))
    · rw [size_large hp hm', Option.getD_some] at hs
      subst hs
      rw [mem_large hb] at hn hm
      simp only at hn hm
      have hfree := free_eq hb hc (fun k _ => congrFun hm k)
      refine key _ (by simp only [deallocate]; rw [if_pos (And.intro h4 h5)]; exact hfree) (by rw [hz]) rfl (size_large hp hm')
        (by omega) (frame_free.fresh hf) ?_
      exact frame_free.congr (fun c => by simp [Impl.own, sbo, ptr, eq_comm]) (fun c => Iff.rfl)
  move_law := by
    intro h o t _ w wt hap hm hs ht
    have hm : (mem sc h o).2 = fun _ => none := hm
    have hs : (size? sc mx o).getD 0 = 0 := hs
    obtain ⟨h1, o1, e1, e2, fr⟩ := destroy_ok (xs := []) hp w (by rw [hm]; funext k; simp) hs (Nat.zero_le _)
    have hdt : ∀ g : Heap V, dtor sc mx g (⟨emptySmall V W sc, 0, false⟩ : Sbo V) = some g := by
      intro g
      rw [emptySmall_eq hp]
      simp only [dtor, destroy', destroyAll, size_small hp (Nat.zero_le sc), mem, destroyRange, Option.map_some, put,
        deallocate, isClean_none, if_true]
    show ∃ h' o' t', moveAssign W sc mx h o t = some (h', o', t') ∧ wf W sc mx h' o' ∧ mem sc h' o' = mem sc h t ∧
      (size? sc mx o').getD 0 = (size? sc mx t).getD 0 ∧ dtor sc mx h' t' = some h' ∧ ptr o' = ptr t ∧ _
    rcases wt with ⟨c, m, rfl, hm'⟩ | ⟨b, cap, m, B, rfl, hm', hb, hc, h4, h5⟩
    · rcases ht with ht | ⟨xs, hx1, hx2, hx3⟩
      · exact absurd ht (Nat.lt_irrefl _)
      · have hx1 : c = cells xs := hx1
        have hx2 : (size? sc mx _).getD 0 = xs.length := hx2
        have hx3 : xs.length ≤ sc := hx3
        rw [size_small hp hm', Option.getD_some] at hx2
        subst hx2 hx1
        have hrel := relocTo_eq sc sc xs (cells xs) (fun _ => none) 0 0 (by omega) (by omega)
          (by intro j hj; simp [cells, hj]) (fun _ _ _ => rfl)
        rw [written_none, show cleared (cells xs) 0 xs.length = fun _ => none by
          have := cleared_cells xs 0 (by omega); simpa [cells_nil] using this] at hrel
        refine ⟨h1, ⟨.small (cells xs) (splitSize W sc xs.length).1, (splitSize W sc xs.length).2, false⟩,
          ⟨emptySmall V W sc, 0, false⟩, ?_, .inl ⟨_, _, rfl, hm'⟩, rfl, rfl, hdt h1, rfl, ?_⟩
        · have hrel : relocTo sc sc (fun k => xs[k]?) (fun _ => none) 0 0 xs.length = some (fun _ => none, cells xs) := hrel
          simp only [moveAssign, e1, moveToEmpty, e2, Bool.not_true, Bool.false_eq_true, if_false, size_small hp hm', hrel]
          rw [if_pos isClean_none]; rfl
        · exact fr.congr (fun c => by simp [Impl.own, sbo, ptr]) (fun c => by simp [Impl.own, sbo, ptr])
    · have hbo : ¬ (sbo V W sc mx).own o b := fun q => hap b q rfl
      have hb1 : h1.blk b = some B := by rw [fr.keep b hbo id, hb]
      refine ⟨h1, ⟨.large b cap (splitSize W mx m).1, (splitSize W mx m).2, true⟩, ⟨emptySmall V W sc, 0, false⟩, ?_,
        .inr ⟨b, cap, m, B, rfl, hm', hb1, hc, h4, h5⟩, ?_, rfl, hdt h1, rfl, ?_⟩
      · simp only [moveAssign, e1, moveToEmpty, e2, Bool.not_true, Bool.false_eq_true, if_false]; rfl
      · rw [mem_large hb1, mem_large hb]
      · exact (fr.more (fun c => c = b)).congr (fun c => by simp [Impl.own, sbo, ptr, eq_comm])
          (fun c => by simp [Impl.own, sbo, ptr, eq_comm])
  dtor_law := by
    intro h o xs w hm hs hl
    obtain ⟨h1, o1, e1, e2, fr⟩ := destroy_ok hp w hm hs hl
    refine ⟨h1, ?_, fr⟩
    show dtor sc mx h o = _
    simp only [dtor, e1, e2, if_true]

end Sbo

end Verif.Containers
