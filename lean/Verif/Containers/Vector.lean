import Verif.Containers.GenericProps
import Verif.Containers.World

/-!
# `bounded_vector`, and with it `vector` and `stable_vector`

source/containers/bounded_vector.cpp 39-199, uninitialized_dynamic_array.cpp 21-88,
dynamic_array_data.cpp 20-74. `vector<T, max>` is `bounded_vector<T, 0, max>` (vector.cpp
24-39), `stable_vector<T, n>` is `bounded_vector<T, n, n>` without `reserve`
(stable_vector.cpp 18-32). Everything here is for arbitrary smallest capacity `mn` and
largest capacity `mx`.
-/

namespace Verif.Containers

open Verif Impl Lawful

variable {V : Type}

/-- The members of a `bounded_vector`: `m_storage.m_storage.pointer`, `m_storage.m_storage.size`
and `m_size`. A null pointer has no slots, so that every access through it is an error; `void`
are those (zero) slots. -/
structure Hdr (V : Type) where
  ptr : Option Nat
  cap : Nat
  size : Nat
  void : Cells V := fun _ => none

namespace Vec

/-- The slots that `data()` refers to. -/
def mem (h : Heap V) (o : Hdr V) : Nat × Cells V :=
  match o.ptr with
  | none => (0, o.void)
  | some b =>
    match h.blk b with
    | none => (0, fun _ => none)
    | some B => (B.cap, B.cell)

/-- Changing those slots. -/
def put (h : Heap V) (o : Hdr V) (c : Cells V) : Heap V × Hdr V :=
  match o.ptr with
  | none => (h, { o with void := c })
  | some b =>
    match h.blk b with
    | none => (h, o)
    | some B => (⟨upd h.blk b (some ⟨B.cap, c⟩), h.next⟩, o)

/-- source/containers/bounded_vector.cpp 152-157, uninitialized_dynamic_array.cpp 67-70 with its
assertion. -/
def capacity (mn mx : Nat) (o : Hdr V) : Option Nat :=
  if mn = mx then some mn
  else if o.ptr.isSome ∨ o.cap = 0 then some o.cap
  else none

/-- source/containers/bounded_vector.cpp 159-162. -/
def setSize (mn mx : Nat) (o : Hdr V) (n : Nat) : Option (Hdr V) :=
  match capacity mn mx o with
  | none => none
  | some c => if n ≤ c then some { o with size := n } else none

/-- source/containers/bounded_vector.cpp 53-57, uninitialized_dynamic_array.cpp 27-32. -/
def new (mn : Nat) (h : Heap V) (fails : Bool) : Res (Heap V × Hdr V) :=
  if mn = 0 then .ok (h, { ptr := none, cap := 0, size := 0 })
  else if fails then .exn
  else .ok ((h.alloc mn).1, { ptr := some (h.alloc mn).2, cap := mn, size := 0 })

/-- source/containers/uninitialized_dynamic_array.cpp 82-86. -/
def release (h : Heap V) (o : Hdr V) : Option (Heap V) :=
  match o.ptr with
  | none => some h
  | some b => h.free b o.cap

/-- source/containers/bounded_vector.cpp 168-179. -/
def reserve (mn mx : Nat) (h : Heap V) (o : Hdr V) (n : Nat) (fails : Bool) : Out (Heap V × Hdr V) :=
  if mx < n then .ub
  else
    match capacity mn mx o with
    | none => .ub
    | some c =>
      if n ≤ c then .ok (h, o)
      else if fails then .exn (h, o)
      else
        let a := h.alloc (max n mn)
        match relocTo (mem h o).1 (max n mn) (mem h o).2 (fun _ => none) 0 0 o.size with
        | none => .ub
        | some (from', to') =>
          let r := put ⟨upd a.1.blk a.2 (some ⟨max n mn, to'⟩), a.1.next⟩ o from'
          match release r.1 r.2 with
          | none => .ub
          | some h' => .ok (h', { ptr := some a.2, cap := max n mn, size := o.size })

/-- source/containers/bounded_vector.cpp 164-167, uninitialized_dynamic_array.cpp 72-75: the old
block is released first; if the allocation then fails, the object keeps the pointer. -/
def replaceEmpty (mn mx : Nat) (h : Heap V) (o : Hdr V) (n : Nat) (fails : Bool) : Out (Heap V × Hdr V) :=
  if o.size ≠ 0 ∨ mx < n then .ub
  else
    match release h o with
    | none => .ub
    | some h1 =>
      if fails then .exn (h1, o)
      else .ok ((h1.alloc (max n mn)).1, { ptr := some (h1.alloc (max n mn)).2, cap := max n mn, size := 0 })

/-- `destroy_range(*this)`. -/
def destroyAll (h : Heap V) (o : Hdr V) : Option (Heap V × Hdr V) :=
  (destroyRange (mem h o).1 (mem h o).2 0 o.size).map (put h o)

/-- source/containers/bounded_vector.cpp 114-120, uninitialized_dynamic_array.cpp 47-53. -/
def moveAssign (h : Heap V) (o t : Hdr V) : Option (Heap V × Hdr V × Hdr V) :=
  match destroyAll h o with
  | none => none
  | some (h1, o1) =>
    match release h1 o1 with
    | none => none
    | some h2 => some (h2, t, { ptr := none, cap := t.cap, size := 0 })

/-- The same with one object on both sides. -/
def selfMove (h : Heap V) (o : Hdr V) : Out (Heap V × Hdr V) :=
  match destroyAll h o with
  | none => .ub
  | some (h1, o1) =>
    match release h1 o1 with
    | none => .ub
    | some h2 => .ok (h2, { ptr := none, cap := o.cap, size := 0 })

/-- source/containers/bounded_vector.cpp 110-112, uninitialized_dynamic_array.cpp 54-56. -/
def dtor (h : Heap V) (o : Hdr V) : Option (Heap V) :=
  match destroyAll h o with
  | none => none
  | some (h1, o1) => release h1 o1

end Vec

/-- `bounded_vector<T, mn, mx>`. `reserve` exists unless the capacity is fixed. -/
def vec (V : Type) (mn mx : Nat) : Impl V (Hdr V) where
  mx := mx
  reservable := mn ≠ mx
  ptr := Hdr.ptr
  size := Hdr.size
  capacity := Vec.capacity mn mx
  mem := Vec.mem
  put := Vec.put
  setSize := Vec.setSize mn mx
  new := Vec.new mn
  reserve := Vec.reserve mn mx
  replaceEmpty := Vec.replaceEmpty mn mx
  moveAssign := Vec.moveAssign
  dtor := Vec.dtor

/-! ### Frames of the heap operations -/

theorem frame_alloc (h : Heap V) (n : Nat) (hf : Fresh h) :
    Frame (fun _ => False) h (fun b => b = h.next) (h.alloc n).1 where
  keep b _ h2 := upd_other _ _ h2
  gone b h1 := absurd h1 id
  new b _ h2 := by subst h2; exact hf _ (Nat.le_refl _)
  fresh _ b hb := by
    have hb' : h.next + 1 ≤ b := hb
    rw [show (h.alloc n).1.blk b = h.blk b from upd_other _ _ (by omega)]
    exact hf b (by omega)

theorem frame_set {h : Heap V} {b : Nat} (hb : h.blk b ≠ none) (B : Blk V) :
    Frame (fun c => c = b) h (fun c => c = b) ⟨upd h.blk b (some B), h.next⟩ where
  keep c h1 _ := upd_other _ _ h1
  gone c h1 h2 := absurd h1 h2
  new c h1 h2 := absurd h2 h1
  fresh hf c hc := by
    have : c ≠ b := by rintro rfl; exact hb (hf _ hc)
    rw [show (⟨upd h.blk b (some B), h.next⟩ : Heap V).blk c = h.blk c from upd_other _ _ this]
    exact hf c hc

theorem frame_free {h : Heap V} {b : Nat} :
    Frame (fun c => c = b) h (fun _ => False) ⟨upd h.blk b none, h.next⟩ where
  keep c h1 _ := upd_other _ _ h1
  gone c h1 _ := by subst h1; exact upd_same _ _ _
  new c _ h2 := absurd h2 id
  fresh hf c hc := by
    show upd h.blk b none c = none
    simp only [upd]
    split
    · rfl
    · exact hf c hc

theorem free_eq {h : Heap V} {b n : Nat} {B : Blk V} (h1 : h.blk b = some B) (h2 : B.cap = n)
    (h3 : ∀ k < n, B.cell k = none) : h.free b n = some ⟨upd h.blk b none, h.next⟩ := by
  simp only [Heap.free, h1]
  rw [if_pos ⟨h2, fun k hk => by simp [h3 k hk]⟩]

namespace Vec

variable {mn mx : Nat}

/-- A vector that can be used: it has a block of the right size, or (if capacity zero is
allowed) no block and capacity zero. -/
def wf (mn mx : Nat) (h : Heap V) (o : Hdr V) : Prop :=
  (o.ptr = none ∧ mn = 0 ∧ o.cap = 0) ∨
  (∃ b B, o.ptr = some b ∧ h.blk b = some B ∧ B.cap = o.cap ∧ mn ≤ o.cap ∧ o.cap ≤ mx)

theorem mem_none {h : Heap V} {o : Hdr V} (h1 : o.ptr = none) : mem h o = (0, o.void) := by
  simp only [mem, h1]

theorem mem_some {h : Heap V} {o : Hdr V} {b : Nat} {B : Blk V} (h1 : o.ptr = some b) (h2 : h.blk b = some B) :
    mem h o = (B.cap, B.cell) := by simp only [mem, h1, h2]

theorem put_none {h : Heap V} {o : Hdr V} (c : Cells V) (h1 : o.ptr = none) :
    put h o c = (h, { o with void := c }) := by simp only [put, h1]

theorem put_some {h : Heap V} {o : Hdr V} {b : Nat} {B : Blk V} (c : Cells V) (h1 : o.ptr = some b)
    (h2 : h.blk b = some B) : put h o c = (⟨upd h.blk b (some ⟨B.cap, c⟩), h.next⟩, o) := by
  simp only [put, h1, h2]

theorem wf_cap {h : Heap V} {o : Hdr V} (w : wf mn mx h o) : capacity mn mx o = some (mem h o).1 := by
  rcases w with ⟨h1, h2, h3⟩ | ⟨b, B, h1, h2, h3, h4, h5⟩
  · rw [mem_none h1]
    simp only [capacity, h2, h3, or_true, if_true]
    split <;> rfl
  · rw [mem_some h1 h2]
    simp only [capacity, h1, Option.isSome_some, true_or, if_true]
    split
    · simp only [Option.some.injEq]; omega
    · simp [h3]

theorem frame_own {h h' : Heap V} {G G' : Nat → Prop} {o o' : Hdr V} {b b' : Nat} (f : Frame G h G' h')
    (h1 : ∀ c, G c ↔ c = b) (h2 : ∀ c, G' c ↔ c = b') (e1 : o.ptr = some b) (e2 : o'.ptr = some b') :
    Frame ((vec V mn mx).own o) h ((vec V mn mx).own o') h' := by
  refine f.congr (fun c => ?_) (fun c => ?_)
  · rw [h1]; simp [Impl.own, vec, e1, eq_comm]
  · rw [h2]; simp [Impl.own, vec, e2, eq_comm]

theorem vec_mem : (vec V mn mx).mem = mem := rfl
theorem vec_dtor : (vec V mn mx).dtor = dtor := rfl

/-- Destroying all elements. -/
theorem destroyAll_eq {h : Heap V} {o : Hdr V} {xs : List V} (hm : (mem h o).2 = fun k => xs[k]?)
    (hs : o.size = xs.length) (hc : xs.length ≤ (mem h o).1) :
    destroyAll h o = some (put h o (fun _ => none)) := by
  have hm' : (mem h o).2 = cells xs := hm
  rw [destroyAll, hm', hs, destroyRange_eq _ _ _ _ (by omega) (fun j _ g => cells_live (by omega))]
  have := cleared_cells xs 0 (by omega)
  simp only [Nat.sub_zero, List.take_zero, cells_nil] at this
  rw [this]; rfl

/-- Destroying all elements and releasing the block. -/
theorem destroy_release {h : Heap V} {o : Hdr V} {xs : List V} (w : wf mn mx h o)
    (hm : (mem h o).2 = fun k => xs[k]?) (hs : o.size = xs.length) (hc : xs.length ≤ (mem h o).1) :
    ∃ h1 o1 h2, destroyAll h o = some (h1, o1) ∧ release h1 o1 = some h2 ∧
      Frame ((vec V mn mx).own o) h (fun _ => False) h2 := by
  rw [destroyAll_eq hm hs hc]
  rcases w with ⟨h1, h2, h3⟩ | ⟨b, B, h1, h2, h3, h4, h5⟩
  · rw [put_none _ h1]
    refine ⟨_, _, h, rfl, by simp only [release, h1], ?_⟩
    exact (Frame.refl (fun _ => False) h).congr (fun c => by simp [Impl.own, vec, h1]) (fun c => Iff.rfl)
  · rw [put_some _ h1 h2]
    have hb : h.blk b ≠ none := by rw [h2]; simp
    have hfree := free_eq (h := ⟨upd h.blk b (some ⟨B.cap, fun _ => none⟩), h.next⟩) (b := b) (n := o.cap)
      (upd_same _ _ _) h3 (fun _ _ => rfl)
    refine ⟨_, _, _, rfl, (by simp only [release, h1]; exact hfree), ?_⟩
    · have := (frame_set hb ⟨B.cap, fun _ => none⟩).trans frame_free
      exact this.congr (fun c => by simp [Impl.own, vec, h1, eq_comm]) (fun c => Iff.rfl)

/-- `bounded_vector` provides what the generic algorithms rely on. -/
def lawful (mn mx : Nat) (hmm : mn ≤ mx) : Lawful (vec V mn mx) mn (decide (mn ≠ 0)) where
  wf := wf mn mx
  wf_cap := wf_cap
  wf_range := by
    intro h o w
    show mn ≤ (mem h o).1 ∧ (mem h o).1 ≤ mx
    rcases w with ⟨h1, h2, h3⟩ | ⟨b, B, h1, h2, h3, h4, h5⟩
    · rw [mem_none h1]; simp only; omega
    · rw [mem_some h1 h2]; simp only; omega
  wf_owned := by
    intro h o b w hb
    have hb : o.ptr = some b := hb
    rcases w with ⟨h1, h2, h3⟩ | ⟨b', B, h1, h2, h3, h4, h5⟩
    · rw [h1] at hb; cases hb
    · rw [h1] at hb; cases hb; rw [h2]; simp
  wf_keep := by
    intro h h' o w hk
    rcases w with ⟨h1, h2, h3⟩ | ⟨b', B, h1, h2, h3, h4, h5⟩
    · exact ⟨.inl ⟨h1, h2, h3⟩, by show mem h' o = mem h o; rw [mem_none h1, mem_none h1]⟩
    · have := hk b' h1
      rw [h2] at this
      exact ⟨.inr ⟨b', B, h1, this, h3, h4, h5⟩, by
        show mem h' o = mem h o; rw [mem_some h1 this, mem_some h1 h2]⟩
  put_law := by
    intro h o c w
    show wf mn mx (put h o c).1 (put h o c).2 ∧ mem (put h o c).1 (put h o c).2 = ((mem h o).1, c) ∧
      (put h o c).2.size = o.size ∧ (put h o c).2.ptr = o.ptr ∧ _
    rcases w with ⟨h1, h2, h3⟩ | ⟨b, B, h1, h2, h3, h4, h5⟩
    · have e : (vec V mn mx).put h o c = (h, { o with void := c }) := put_none c h1
      rw [e, put_none c h1]
      exact ⟨.inl ⟨h1, h2, h3⟩, by rw [mem_none h1, mem_none (by exact h1)], rfl, rfl, Frame.refl _ _⟩
    · have e : (vec V mn mx).put h o c = _ := put_some c h1 h2
      rw [e, put_some c h1 h2]
      have hb : h.blk b ≠ none := by rw [h2]; simp
      refine ⟨.inr ⟨b, _, h1, upd_same _ _ _, h3, h4, h5⟩, ?_, rfl, rfl, ?_⟩
      · rw [mem_some (h := ⟨upd h.blk b (some ⟨B.cap, c⟩), h.next⟩) h1 (upd_same _ _ _), mem_some h1 h2]
      · exact frame_own (frame_set hb _) (fun _ => Iff.rfl) (fun _ => Iff.rfl) h1 h1
  size_law := by
    intro h o n w hn
    refine ⟨{ o with size := n }, ?_, ?_, ?_, rfl, rfl⟩
    · show setSize mn mx o n = _
      simp only [setSize, wf_cap w, if_pos (show n ≤ (mem h o).1 from hn)]
    · exact w
    · rfl
  mk_exn := by
    intro h hm
    have : mn ≠ 0 := by simpa using hm
    show Vec.new mn h true = .exn
    simp [Vec.new, this]
  mk_ok := by
    intro h f hf ha
    by_cases h0 : mn = 0
    · subst h0
      refine ⟨h, { ptr := none, cap := 0, size := 0 }, by show Vec.new 0 h f = _; simp [Vec.new],
        .inl ⟨rfl, rfl, rfl⟩, rfl, rfl, ?_, fun _ => rfl⟩
      exact (Frame.refl (fun _ => False) h).congr (fun _ => Iff.rfl) (fun c => by simp [Impl.own, vec])
    · have : f = false := by simpa [h0] using ha
      subst this
      refine ⟨(h.alloc mn).1, { ptr := some (h.alloc mn).2, cap := mn, size := 0 },
        by show Vec.new mn h false = _; simp [Vec.new, h0],
        .inr ⟨_, _, rfl, upd_same _ _ _, rfl, Nat.le_refl _, hmm⟩, ?_, rfl, ?_, fun e => absurd e h0⟩
      · rw [vec_mem]
        rw [mem_some (b := h.next) (B := ⟨mn, fun _ => none⟩) rfl (upd_same _ _ _)]
      · exact (frame_alloc h mn hf).congr (fun _ => Iff.rfl) (fun c => by
          simp [Impl.own, vec, Heap.alloc, eq_comm])
  reserve_none := by
    intro h o n f w hn
    have hr : (mem h o).1 ≤ mx := by
      rcases w with ⟨h1, h2, h3⟩ | ⟨b, B, h1, h2, h3, h4, h5⟩
      · rw [mem_none h1]; simp only; omega
      · rw [mem_some h1 h2]; simp only; omega
    have hn : n ≤ (mem h o).1 := hn
    show reserve mn mx h o n f = _
    simp only [reserve, wf_cap w, if_neg (show ¬ mx < n by omega), if_pos hn]
  reserve_exn := by
    intro h o n _ w hn hx
    have hn : (mem h o).1 < n := hn
    have hx : n ≤ mx := hx
    show reserve mn mx h o n true = _
    simp only [reserve, wf_cap w, if_neg (show ¬ mx < n by omega), if_neg (show ¬ n ≤ (mem h o).1 by omega), if_true]
  reserve_ok := by
    intro h o n xs _ hf w hm hs hl hn hx
    have hn : (mem h o).1 < n := hn
    have hx : n ≤ mx := hx
    have hm : (mem h o).2 = cells xs := hm
    have hs : o.size = xs.length := hs
    have hl : xs.length ≤ (mem h o).1 := hl
    have hmn : mn ≤ (mem h o).1 := by
      rcases w with ⟨h1, h2, h3⟩ | ⟨b, B, h1, h2, h3, h4, h5⟩
      · omega
      · rw [mem_some h1 h2]; simp only; omega
    have hmax : max n mn = n := by omega
    have hrel := relocTo_eq (mem h o).1 n xs (cells xs) (fun _ => none) 0 0 (by omega) (by omega)
      (by intro j hj; simp [cells, hj]) (fun _ _ _ => rfl)
    rw [written_none, show cleared (cells xs) 0 xs.length = fun _ => none by
      have := cleared_cells xs 0 (by omega); simpa [cells_nil] using this] at hrel
    have fa := frame_alloc h n hf
    have hnx : h.blk h.next = none := hf _ (Nat.le_refl _)
    have e0 : reserve mn mx h o n false =
        (match release (put ⟨upd (h.alloc n).1.blk h.next (some ⟨n, cells xs⟩), h.next + 1⟩ o (fun _ => none)).1
          (put ⟨upd (h.alloc n).1.blk h.next (some ⟨n, cells xs⟩), h.next + 1⟩ o (fun _ => none)).2 with
        | none => .ub
        | some h' => .ok (h', { ptr := some h.next, cap := n, size := xs.length })) := by
      simp only [reserve, wf_cap w, if_neg (show ¬ mx < n by omega), if_neg (show ¬ n ≤ (mem h o).1 by omega),
        Bool.false_eq_true, if_false, hmax, hm, hs, hrel]
      rfl
    have fs : Frame (fun c => c = h.next) (h.alloc n).1 (fun c => c = h.next)
        ⟨upd (h.alloc n).1.blk h.next (some ⟨n, cells xs⟩), h.next + 1⟩ :=
      frame_set (h := (h.alloc n).1) (b := h.next) (by rw [show (h.alloc n).1.blk h.next = _ from upd_same _ _ _]; simp) _
    have f01 := fa.trans fs
    show ∃ h' o', reserve mn mx h o n false = _ ∧ wf mn mx h' o' ∧ mem h' o' = _ ∧ o'.size = _ ∧ _
    rw [e0]
    rcases w with ⟨h1, h2, h3⟩ | ⟨b, B, h1, h2, h3, h4, h5⟩
    · rw [put_none _ h1]
      simp only [release, h1]
      refine ⟨_, _, rfl, .inr ⟨_, _, rfl, upd_same _ _ _, rfl, by simp only; omega, hx⟩, ?_, rfl, ?_⟩
      · rw [mem_some (b := h.next) (B := ⟨n, cells xs⟩) rfl (upd_same _ _ _)]; rfl
      · exact f01.congr (fun c => by simp [Impl.own, vec, h1]) (fun c => by simp [Impl.own, vec, eq_comm])
    · have hbn : b ≠ h.next := by rintro rfl; rw [hnx] at h2; cases h2
      have h2' : (⟨upd (h.alloc n).1.blk h.next (some ⟨n, cells xs⟩), h.next + 1⟩ : Heap V).blk b = some B := by
        show upd (upd h.blk h.next _) h.next _ b = _
        rw [upd_other _ _ hbn, upd_other _ _ hbn, h2]
      rw [put_some _ h1 h2']
      simp only [release, h1]
      rw [free_eq (B := ⟨B.cap, fun _ => none⟩) (upd_same _ _ _) h3 (fun _ _ => rfl)]
      have hnb : h.next ≠ b := fun e => hbn e.symm
      have hlast : upd (upd (upd (upd h.blk h.next (some ⟨n, fun _ => none⟩)) h.next (some ⟨n, cells xs⟩)) b
          (some ⟨B.cap, fun _ => none⟩)) b none h.next = some ⟨n, cells xs⟩ := by
        rw [upd_other _ _ hnb, upd_other _ _ hnb, upd_same]
      refine ⟨_, _, rfl, .inr ⟨h.next, _, rfl, hlast, rfl, by simp only; omega, hx⟩, ?_, rfl, ?_⟩
      · rw [mem_some (b := h.next) (B := ⟨n, cells xs⟩) rfl hlast]; rfl
      · have fput := frame_set (h := ⟨upd (h.alloc n).1.blk h.next (some ⟨n, cells xs⟩), h.next + 1⟩) (b := b)
          (by rw [h2']; simp) ⟨B.cap, fun _ => none⟩
        have g1 := f01.more (fun c => c = b)
        have g2 := (fput.trans frame_free).more (fun c => c = h.next)
        have g3 := (g1.congr (K' := fun c => c = b ∨ c = h.next) (fun c => Iff.rfl) (fun c => Or.comm)).trans g2
        exact g3.congr (fun c => by simp [Impl.own, vec, h1, eq_comm]) (fun c => by simp [Impl.own, vec, eq_comm])
  replace_ok := by
    intro h o n _ hf w hm hs hn hx
    have hm : (mem h o).2 = fun _ => none := hm
    have hs : o.size = 0 := hs
    have hn : (mem h o).1 < n := hn
    have hx : n ≤ mx := hx
    have hmn : mn ≤ (mem h o).1 := by
      rcases w with ⟨h1, h2, h3⟩ | ⟨b, B, h1, h2, h3, h4, h5⟩
      · omega
      · rw [mem_some h1 h2]; simp only; omega
    have hmax : max n mn = n := by omega
    obtain ⟨h1, hrel, fr⟩ : ∃ h1, release h o = some h1 ∧ Frame ((vec V mn mx).own o) h (fun _ => False) h1 := by
      rcases w with ⟨h1, h2, h3⟩ | ⟨b, B, h1, h2, h3, h4, h5⟩
      · refine ⟨h, by simp only [release, h1], ?_⟩
        exact (Frame.refl (fun _ => False) h).congr (fun c => by simp [Impl.own, vec, h1]) (fun c => Iff.rfl)
      · rw [mem_some h1 h2] at hm
        refine ⟨_, by simp only [release, h1]; exact free_eq h2 h3 (fun k _ => congrFun hm k), ?_⟩
        exact frame_free.congr (fun c => by simp [Impl.own, vec, h1, eq_comm]) (fun c => Iff.rfl)
    refine ⟨(h1.alloc n).1, { ptr := some h1.next, cap := n, size := 0 }, ?_, ?_, ?_, rfl, ?_⟩
    · show replaceEmpty mn mx h o n false = _
      simp only [replaceEmpty, hs, hrel, hmax]
      rw [if_neg (by omega)]
      simp only [Bool.false_eq_true, if_false]
      rfl
    · exact .inr ⟨h1.next, _, rfl, upd_same _ _ _, rfl, by simp only; omega, hx⟩
    · rw [vec_mem]
      rw [mem_some (b := h1.next) (B := ⟨n, fun _ => none⟩) rfl (upd_same _ _ _)]
    · exact fr.trans ((frame_alloc h1 n (fr.fresh hf)).congr (fun c => Iff.rfl) (fun c => by
        simp [Impl.own, vec, eq_comm]))
  move_law := by
    intro h o t _ wo wt hap hm hs _
    have hm : (mem h o).2 = fun k => ([] : List V)[k]? := by
      rw [show (mem h o).2 = fun _ => none from hm]; simp
    obtain ⟨h1, o1, h2, e1, e2, fr⟩ := destroy_release wo hm hs (by simp)
    have hap' : ∀ b, (vec V mn mx).own t b → ¬ (vec V mn mx).own o b := fun b x y => hap b y x
    have hk : ∀ b, t.ptr = some b → h2.blk b = h.blk b := by
      intro b hb
      exact fr.keep b (hap' b hb) id
    refine ⟨h2, t, { ptr := none, cap := t.cap, size := 0 }, ?_, ?_, ?_, rfl, ?_, rfl, ?_⟩
    · show moveAssign h o t = _
      simp only [moveAssign, e1, e2]
    · show wf mn mx h2 t
      rcases wt with h1 | ⟨b, B, h1, h2', h3⟩
      · exact .inl h1
      · exact .inr ⟨b, B, h1, by rw [hk b h1, h2'], h3⟩
    · show mem h2 t = mem h t
      rcases wt with ⟨h1, _⟩ | ⟨b, B, h1, h2', h3⟩
      · rw [mem_none h1, mem_none h1]
      · rw [mem_some h1 h2', mem_some h1 (by rw [hk b h1, h2'])]
    · rw [vec_dtor]
      have := destroyAll_eq (h := h2) (o := { ptr := none, cap := t.cap, size := 0 }) (xs := ([] : List V))
        (by simp [mem]) rfl (by simp)
      simp only [dtor, this, put, release]
    · exact (fr.more ((vec V mn mx).own t)).congr (fun c => Iff.rfl) (fun c => by simp)
  dtor_law := by
    intro h o xs w hm hs hl
    obtain ⟨h1, o1, h2, e1, e2, fr⟩ := destroy_release w hm hs hl
    exact ⟨h2, by show dtor h o = _; simp only [dtor, e1, e2], fr⟩

end Vec

end Verif.Containers
