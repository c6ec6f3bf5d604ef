import Verif.Containers.Vector

/-!
# Programs with any number of vectors

The special members of `bounded_vector` (construction, copy, move, swap, destruction), and the
refinement theorem for every history of a program that uses them together with the operations
of `Generic.lean`.
-/

namespace Verif.Containers

open Verif Impl Lawful

variable {V : Type}

/-- Reading the elements of a range `[k, k + n)`. -/
def readFrom (cap : Nat) (m : Cells V) : Nat → Nat → Option (List V)
  | _, 0 => some []
  | k, n + 1 =>
    match readCell cap m k with
    | none => none
    | some v => (readFrom cap m (k + 1) n).map (v :: ·)

theorem readFrom_eq (cap : Nat) (xs : List V) (hc : xs.length ≤ cap) :
    ∀ n k, k + n = xs.length → readFrom cap (cells xs) k n = some (xs.drop k) := by
  intro n
  induction n with
  | zero => intro k hk; simp only [readFrom]; rw [List.drop_eq_nil_of_le (by omega)]
  | succ n ih =>
    intro k hk
    have hk' : k < xs.length := by omega
    simp only [readFrom, readCell, cells]
    rw [if_pos (by omega), List.getElem?_eq_getElem hk']
    have := ih (k + 1) (by omega)
    simp only [this, Option.map_some]
    rw [List.drop_eq_getElem_cons hk']

/-- Copying the elements of a container: `thr k` says that copying the `k`-th element throws. -/
def items (xs : List V) (thr : Nat → Bool) : List (Item V) := xs.mapIdx fun k v => ⟨v, thr k⟩

@[simp] theorem items_length (xs : List V) (thr : Nat → Bool) : (items xs thr).length = xs.length := by
  simp [items]

@[simp] theorem vals_items (xs : List V) (thr : Nat → Bool) : vals (items xs thr) = xs := by
  simp only [vals, items]
  apply List.ext_getElem <;> simp

/-- Operations with two vectors. -/
inductive VBin (V : Type) where
  /-- move assignment -/
  | move
  /-- copy assignment; `left` is the value that a failed element assignment leaves behind -/
  | copy (thr : Nat → Bool) (left : V) (al : Nat → Bool)
  /-- copy assignment when the elements are trivially copyable -/
  | copyTrivial (al : Nat → Bool)
  | swap

/-- Constructors. -/
inductive VCtor (V : Type) where
  /-- default -/
  | dflt (fails : Bool)
  /-- with room for `n` elements -/
  | room (n : Nat) (fails : Bool)
  /-- from a range whose size is known -/
  | sized (src : List (Item V)) (fails : Bool)
  /-- from a range whose size is not known -/
  | unsized (src : List (Item V)) (al : Nat → Bool)

/-- Constructors from another vector. -/
inductive VFrom where
  | copy (thr : Nat → Bool) (fails : Bool)
  | move

/-- What the user knows of a vector: its elements, its capacity and whether it has no heap
block (`data()` is null); or that it has been moved from. -/
inductive VA (V : Type) where
  | live (xs : List V) (cap : Nat) (nul : Bool)
  | moved

/-- The elements. -/
def VA.elems : VA V → List V
  | .live xs _ _ => xs
  | .moved => []

/-- Is `data()` null? -/
def VA.isNull : VA V → Bool
  | .live _ _ n => n
  | .moved => true

namespace Vec

/-- source/containers/bounded_vector.cpp 185-190 with 67-74, and the copy constructor 103-108:
allocate, then copy. If an element throws, `uninitialized_copy_no_overlap` has destroyed the
copies and the destructor of `m_storage` releases the block. -/
def fromSized (mn mx : Nat) (h : Heap V) (src : List (Item V)) (fails : Bool) : Made (Heap V) (Heap V × Hdr V) :=
  if mx < src.length then .ub
  else if fails then .exn h
  else
    let a := h.alloc (max src.length mn)
    match (vec V mn mx).copyAt a.1 { ptr := some a.2, cap := max src.length mn, size := src.length } 0 src with
    | .ub => .ub
    | .ok r => .ok r
    | .exn r =>
      match release r.1 r.2 with
      | none => .ub
      | some h' => .exn h'

/-- source/containers/bounded_vector.cpp 59-65, assign_to_empty.cpp 83-86: elements are added one
at a time to the object under construction. If one throws, only the destructor of `m_storage`
runs. -/
def fromUnsized (mn mx : Nat) (h : Heap V) (src : List (Item V)) (al : Nat → Bool) :
    Made (Heap V) (Heap V × Hdr V) :=
  match new mn h (al 0) with
  | .ub => .ub
  | .exn => .exn h
  | .ok (h1, o) =>
    match (vec V mn mx).appendUnsized h1 o (fun k => al (k + 1)) src with
    | .ub => .ub
    | .ok r => .ok r
    | .exn r =>
      match release r.1 r.2 with
      | none => .ub
      | some h' => .exn h'

/-- The constructors: source/containers/bounded_vector.cpp 46-74. -/
def ctor (mn mx : Nat) : VCtor V → Heap V → Made (Heap V) (Heap V × Hdr V)
  | .dflt fails, h =>
    match new mn h fails with
    | .ok r => .ok r
    | .exn => .exn h
    | .ub => .ub
  | .room n fails, h =>
    if n < mn ∨ mx < n then .ub
    else if fails then .exn h
    else .ok ((h.alloc n).1, { ptr := some (h.alloc n).2, cap := n, size := 0 })
  | .sized src fails, h => fromSized mn mx h src fails
  | .unsized src al, h => fromUnsized mn mx h src al

/-- source/containers/bounded_vector.cpp 97-108. -/
def ctorFrom (mn mx : Nat) : VFrom → Heap V → Hdr V → Made (Heap V × Hdr V) (Heap V × Hdr V × Hdr V)
  | .move, h, t => .ok (h, t, { ptr := none, cap := t.cap, size := 0 })
  | .copy thr fails, h, t =>
    match readFrom (mem h t).1 (mem h t).2 0 t.size with
    | none => .ub
    | some vs =>
      match fromSized mn mx h (items vs thr) fails with
      | .ub => .ub
      | .exn h' => .exn (h', t)
      | .ok (h', o) => .ok (h', o, t)

/-- source/containers/bounded_vector.cpp 125-130: copy assignment to a vector without storage. -/
def assignToNull (mn mx : Nat) (h : Heap V) (o : Hdr V) (src : List (Item V)) (al : Nat → Bool) :
    Out (Heap V × Hdr V) :=
  match replaceEmpty mn mx h o src.length (al 0) with
  | .ub => .ub
  | .exn r => .exn r
  | .ok (h1, o1) =>
    match (vec V mn mx).copyAt h1 o1 0 src with
    | .ub => .ub
    | .exn r => .exn r
    | .ok r => .ok (r.1, { r.2 with size := src.length })

/-- Two different vectors: source/containers/bounded_vector.cpp 114-138. -/
def bin (mn mx : Nat) : VBin V → Heap V → Hdr V → Hdr V → Out (Heap V × Hdr V × Hdr V)
  | .move, h, o, t =>
    match moveAssign h o t with
    | none => .ub
    | some r => .ok r
  | .swap, h, o, t => .ok (h, t, o)
  | .copy thr left al, h, o, t =>
    match readFrom (mem h t).1 (mem h t).2 0 t.size with
    | none => .ub
    | some vs =>
      (if o.ptr = none then assignToNull mn mx h o (items vs thr) al
        else (vec V mn mx).assign h o (items vs thr) left al).bind (fun r => .ok (r.1, r.2, t)) (fun r => (r.1, r.2, t))
  | .copyTrivial al, h, o, t =>
    match readFrom (mem h t).1 (mem h t).2 0 t.size with
    | none => .ub
    | some vs =>
      (if o.ptr = none then assignToNull mn mx h o (items vs fun _ => false) al
        else (vec V mn mx).assignTrivial h o (items vs fun _ => false) al).bind (fun r => .ok (r.1, r.2, t))
          (fun r => (r.1, r.2, t))

/-- The same vector on both sides. -/
def self : VBin V → Heap V → Hdr V → Out (Heap V × Hdr V)
  | .move, h, o => selfMove h o
  | .swap, h, o => .ok (h, o)
  | .copy _ _ _, h, o => .ok (h, o)
  | .copyTrivial _, h, o => .ok (h, o)

end Vec

/-! ### Specification -/

/-- The constants of `bounded_vector<T, mn, mx>`. -/
def vcfg (mn mx : Nat) : Cfg := ⟨mn, mx, decide (mn ≠ 0), decide (mn ≠ mx)⟩

/-- After an operation that leads from capacity `cap` to capacity `cap'`. -/
def nulAfter (cap : Nat) (nul : Bool) (cap' : Nat) : Bool :=
  if cap' = 0 then (if cap = 0 then nul else true) else false

/-- An operation on one vector. -/
def vunS (mn mx : Nat) (u : GOp V) : VA V → VA V × Bool
  | .live xs cap nul =>
    let r := u.spec (vcfg mn mx) (xs, cap)
    (.live r.1.1 r.1.2 (nulAfter cap nul r.1.2), r.2)
  | .moved => (.moved, false)

/-- Copy assignment of the elements `ys` (`src` with what throws) to a vector `a`. -/
def vcopyS (mn mx : Nat) (a : VA V) (ys : List V) (src : List (Item V)) (op : GOp V) (al : Nat → Bool) :
    VA V × Bool :=
  if a.isNull then
    if al 0 then (a, true)
    else if src.any (·.throws) then (.live [] (max ys.length mn) false, true)
    else (.live ys (max ys.length mn) false, false)
  else vunS mn mx op a

/-- Operations with two vectors. -/
def vbinS (mn mx : Nat) : VBin V → VA V → VA V → (VA V × VA V) × Bool
  | .move, _, b => ((b, .moved), false)
  | .swap, a, b => ((b, a), false)
  | .copy thr left al, a, b =>
    let r := vcopyS mn mx a b.elems (items b.elems thr) (.assign (items b.elems thr) left al) al
    ((r.1, b), r.2)
  | .copyTrivial al, a, b =>
    let r := vcopyS mn mx a b.elems (items b.elems fun _ => false) (.assignTrivial (items b.elems fun _ => false) al) al
    ((r.1, b), r.2)

/-- A vector with itself: only move assignment does anything. -/
def vselfS : VBin V → VA V → VA V × Bool
  | .move, _ => (.moved, false)
  | .swap, a => (a, false)
  | .copy _ _ _, a => (a, false)
  | .copyTrivial _, a => (a, false)

/-- Constructors. -/
def vctorS (mn mx : Nat) : VCtor V → VA V × Bool
  | .dflt fails => (.live [] mn (decide (mn = 0)), decide (mn ≠ 0) && fails)
  | .room n fails => (.live [] n false, fails)
  | .sized src fails => (.live (src.map (·.val)) (max src.length mn) false, fails || src.any (·.throws))
  | .unsized src al =>
    if decide (mn ≠ 0) && al 0 then (.moved, true)
    else
      let r := (GOp.appendUnsized src fun k => al (k + 1)).spec (vcfg mn mx) ([], mn)
      (.live r.1.1 r.1.2 (nulAfter mn (decide (mn = 0)) r.1.2), r.2)

/-- Constructors from another vector. -/
def vfromS (mn : Nat) : VFrom → VA V → (VA V × VA V) × Bool
  | .move, a => ((a, .moved), false)
  | .copy thr fails, a =>
    ((.live a.elems (max a.elems.length mn) false, a), fails || (items a.elems thr).any (·.throws))

/-- A moved-from vector takes part in assignment, swap, copy and destruction only (see
`C25_moved_from_violated`). -/
def vunP (mn mx : Nat) (u : GOp V) : VA V → Prop
  | .live xs cap _ => u.pre (vcfg mn mx) (xs, cap)
  | .moved => False

/-- Copy assignment of trivially copyable elements needs an allocation that succeeds if it
needs one (see `C27_failed_allocation_violated`). -/
def vbinP : VBin V → VA V → VA V → Prop
  | .copyTrivial al, .live _ cap nul, b => nul = false → cap < b.elems.length → al 0 = false
  | _, _, _ => True

/-- The unsized constructor: adding the elements must be possible, and an exception may only come
before the first element is added (see `C27_unsized_constructor_violated`). -/
def vctorP (mn mx : Nat) : VCtor V → Prop
  | .dflt _ => True
  | .room n _ => mn ≤ n ∧ n ≤ mx
  | .sized src _ => src.length ≤ mx
  | .unsized src al =>
    (GOp.appendUnsized src fun k => al (k + 1)).pre (vcfg mn mx) ([], mn) ∧
      (((GOp.appendUnsized src fun k => al (k + 1)).spec (vcfg mn mx) ([], mn)).2 = true →
        ((GOp.appendUnsized src fun k => al (k + 1)).spec (vcfg mn mx) ([], mn)).1.1 = [])

/-- `bounded_vector<T, mn, mx>` with its specification. -/
def vsys (V : Type) (mn mx : Nat) : Sys V (Hdr V) (VA V) (GOp V) (VBin V) (VCtor V) VFrom where
  own := (vec V mn mx).own
  un u h o := (vec V mn mx).step mn h o u
  bin := Vec.bin mn mx
  self := Vec.self
  ctor := Vec.ctor mn mx
  ctorFrom := Vec.ctorFrom mn mx
  dtor := Vec.dtor
  unS := vunS mn mx
  binS := vbinS mn mx
  selfS := vselfS
  ctorS := vctorS mn mx
  ctorFromS := vfromS mn
  unP := vunP mn mx
  binP := vbinP
  selfP _ _ := True
  ctorP := vctorP mn mx
  ctorFromP _ _ := True

instance (mn mx : Nat) (u : GOp V) (a : VA V) : Decidable ((vsys V mn mx).unP u a) := by
  show Decidable (vunP mn mx u a); cases a <;> simp only [vunP] <;> infer_instance

instance (mn mx : Nat) (b : VBin V) (a a' : VA V) : Decidable ((vsys V mn mx).binP b a a') := by
  show Decidable (vbinP b a a'); cases b <;> cases a <;> simp only [vbinP] <;> infer_instance

instance (mn mx : Nat) (b : VBin V) (a : VA V) : Decidable ((vsys V mn mx).selfP b a) := isTrue trivial

instance (mn mx : Nat) (c : VCtor V) : Decidable ((vsys V mn mx).ctorP c) := by
  show Decidable (vctorP mn mx c); cases c <;> simp only [vctorP] <;> infer_instance

instance (mn mx : Nat) (x : VFrom) (a : VA V) : Decidable ((vsys V mn mx).ctorFromP x a) := isTrue trivial

/-- What a vector is in memory. -/
def vinv (mn mx : Nat) (hmm : mn ≤ mx) (h : Heap V) (o : Hdr V) : VA V → Prop
  | .live xs cap nul => (Vec.lawful mn mx hmm).Rep h o xs cap ∧ (nul = true ↔ o.ptr = none)
  | .moved => o.ptr = none ∧ o.size = 0

namespace Vec

variable {mn mx : Nat} {hmm : mn ≤ mx}

theorem cfg_eq : (lawful (V := V) mn mx hmm).cfg = vcfg mn mx := rfl

theorem not_own {o : Hdr V} (h : o.ptr = none) (b : Nat) : ¬ (vec V mn mx).own o b := by
  intro hb; have hb : o.ptr = some b := hb; rw [h] at hb; cases hb

/-- The elements of a vector, read from memory. -/
theorem inv_read {h : Heap V} {o : Hdr V} {a : VA V} (v : vinv mn mx hmm h o a) :
    readFrom (mem h o).1 (mem h o).2 0 o.size = some a.elems ∧ a.elems.length ≤ mx := by
  cases a with
  | live xs cap nul =>
    obtain ⟨r, _⟩ := v
    have hm : mem h o = (cap, cells xs) := r.mem
    have hs : o.size = xs.length := r.1.2.2
    rw [hm, hs, readFrom_eq cap xs r.2 _ _ (by omega)]
    have := r.2
    have h2 : mn ≤ cap ∧ cap ≤ mx := r.view.range
    exact ⟨rfl, by simp only [VA.elems]; omega⟩
  | moved =>
    obtain ⟨_, h2⟩ := v
    rw [h2]; exact ⟨rfl, by simp [VA.elems]⟩

theorem inv_null {h : Heap V} {o : Hdr V} {a : VA V} (v : vinv mn mx hmm h o a) :
    a.isNull = true ↔ o.ptr = none := by
  cases a with
  | live xs cap nul => exact v.2
  | moved => simp only [VA.isNull, true_iff]; exact v.1

/-- A generic operation on a live vector. -/
theorem inv_good {h : Heap V} {o : Hdr V} {xs : List V} {cap : Nat} {nul : Bool}
    (v : vinv mn mx hmm h o (.live xs cap nul)) {x : Out (Heap V × Hdr V)} {s : SV V × Bool}
    (g : (lawful mn mx hmm).Good h o x s) :
    ∃ h' o', x = Out.of s.2 (h', o') ∧ vinv mn mx hmm h' o' (.live s.1.1 s.1.2 (nulAfter cap nul s.1.2)) ∧
      Frame ((vec V mn mx).own o) h ((vec V mn mx).own o') h' := by
  obtain ⟨h', o', e, r', fr, pr⟩ := g
  refine ⟨h', o', e, ⟨r', ?_⟩, fr⟩
  obtain ⟨r, hn⟩ := v
  have hm : mem h o = (cap, cells xs) := r.mem
  have hm' : mem h' o' = (s.1.2, cells s.1.1) := r'.mem
  simp only [nulAfter]
  by_cases h0 : s.1.2 = 0
  · unfold PtrRule at pr
    rw [vec_mem, hm] at pr
    simp only [h0, if_true] at pr ⊢
    by_cases hc : cap = 0
    · simp only [hc, if_true] at pr ⊢
      have pr : o'.ptr = o.ptr := pr.1 trivial
      rw [pr]; exact hn
    · simp only [hc, if_false] at pr ⊢
      simp only [true_iff]
      exact pr.2 trivial hc
  · simp only [h0, if_false, Bool.false_eq_true, false_iff]
    intro hp
    rw [mem_none hp] at hm'
    have := congrArg Prod.fst hm'
    exact h0 this.symm

/-- A freshly allocated vector. -/
theorem fresh_rep {h : Heap V} (hf : Fresh h) {n : Nat} (h1 : mn ≤ n) (h2 : n ≤ mx) (k : Nat) :
    (lawful mn mx hmm).View (h.alloc n).1 { ptr := some (h.alloc n).2, cap := n, size := k } n (fun _ => none) k ∧
    Frame (fun _ => False) h ((vec V mn mx).own { ptr := some (h.alloc n).2, cap := n, size := k }) (h.alloc n).1 := by
  refine ⟨⟨.inr ⟨_, _, rfl, upd_same _ _ _, rfl, h1, h2⟩, ?_, rfl⟩, ?_⟩
  · rw [vec_mem, mem_some (b := h.next) (B := ⟨n, fun _ => none⟩) rfl (upd_same _ _ _)]
  · exact (frame_alloc h n hf).congr (fun _ => Iff.rfl) (fun c => by simp [Impl.own, vec, Heap.alloc, eq_comm])

/-- Releasing storage without elements. -/
theorem release_raw {h : Heap V} {o : Hdr V} {cap n : Nat} (v : (lawful mn mx hmm).View h o cap (fun _ => none) n) :
    ∃ h', release h o = some h' ∧ Frame ((vec V mn mx).own o) h (fun _ => False) h' := by
  obtain ⟨w, hm, _⟩ := v
  have hm : mem h o = (cap, fun _ => none) := hm
  rcases w with ⟨h1, h2, h3⟩ | ⟨b, B, h1, h2, h3, h4, h5⟩
  · refine ⟨h, by simp only [release, h1], ?_⟩
    exact (Frame.refl (fun _ => False) h).congr (fun c => by simp [Impl.own, vec, h1]) (fun c => Iff.rfl)
  · rw [mem_some h1 h2] at hm
    have := congrArg Prod.snd hm
    refine ⟨_, by simp only [release, h1]; exact free_eq h2 h3 (fun k _ => congrFun this k), ?_⟩
    exact frame_free.congr (fun c => by simp [Impl.own, vec, h1, eq_comm]) (fun c => Iff.rfl)

theorem noThrow_any (src : List (Item V)) : src.any (·.throws) = !noThrow src := by simp [noThrow]

theorem ptr_copyAt {h h' : Heap V} {o o' : Hdr V} (e : (vec V mn mx).own o' = (vec V mn mx).own o) :
    o'.ptr = o.ptr := ptr_of_own (I := vec V mn mx) e

theorem fromSized_ok {h : Heap V} (hf : Fresh h) (src : List (Item V)) (fails : Bool) (hl : src.length ≤ mx) :
    ∃ h' o, fromSized mn mx h src fails = Made.of (fails || src.any (·.throws)) h' (h', o) ∧
      ((fails || src.any (·.throws)) = true → Frame (fun _ => False) h (fun _ => False) h') ∧
      ((fails || src.any (·.throws)) = false →
        vinv mn mx hmm h' o (.live (src.map (·.val)) (max src.length mn) false) ∧
        Frame (fun _ => False) h ((vec V mn mx).own o) h') := by
  simp only [fromSized, if_neg (Nat.not_lt.2 hl), noThrow_any]
  cases fails with
  | true => exact ⟨h, { ptr := none, cap := 0, size := 0 }, rfl, fun _ => Frame.refl _ _, fun e => by simp at e⟩
  | false =>
    simp only [Bool.false_eq_true, if_false, Bool.false_or]
    obtain ⟨v, fr⟩ := fresh_rep (hmm := hmm) hf (n := max src.length mn) (by omega) (by omega) src.length
    obtain ⟨h1, o1, e1, v1, eo, f1⟩ := v.copyAt (pos := 0) (src := src) (by omega) (fun _ _ _ => rfl)
    rw [e1]
    cases hn : noThrow src
    · simp only [hn, Bool.false_eq_true, if_false] at v1
      obtain ⟨h2, e2, f2⟩ := release_raw v1
      simp only [Bool.not_false, Out.of_true, e2, Made.of_true]
      exact ⟨h2, o1, rfl, fun _ => (fr.trans f1).trans f2, fun e => by simp at e⟩
    · simp only [hn, if_true, written_none] at v1
      simp only [Bool.not_true, Out.of_false, Made.of_false]
      refine ⟨h1, o1, rfl, fun e => by simp at e, fun _ => ⟨⟨rep_of v1 rfl (by simp) (by simp; omega), ?_⟩, fr.trans f1⟩⟩
      rw [ptr_copyAt (mn := mn) (mx := mx) (h := h) (h' := h) eo]; simp

theorem assignToNull_ok {h : Heap V} (hf : Fresh h) {o : Hdr V} {a : VA V} (v : vinv mn mx hmm h o a)
    (hp : o.ptr = none) (ys : List V) (src : List (Item V)) (hys : vals src = ys) (hl : src.length ≤ mx)
    (op : GOp V) (al : Nat → Bool) :
    ∃ h' o', assignToNull mn mx h o src al = Out.of (vcopyS mn mx a ys src op al).2 (h', o') ∧
      vinv mn mx hmm h' o' (vcopyS mn mx a ys src op al).1 ∧
      Frame ((vec V mn mx).own o) h ((vec V mn mx).own o') h' := by
  have hnull : a.isNull = true := (inv_null v).2 hp
  have hlen : ys.length = src.length := by rw [← hys]; simp
  have hsz : o.size = 0 := by
    cases a with
    | live xs cap nul =>
      obtain ⟨r, _⟩ := v
      have hm : mem h o = (cap, cells xs) := r.mem
      rw [mem_none hp] at hm
      have h1 : 0 = cap := congrArg Prod.fst hm
      have h2 := r.2
      have h3 : o.size = xs.length := r.1.2.2
      omega
    | moved => exact v.2
  have ho : Frame ((vec V mn mx).own o) h (fun _ => False) h :=
    (Frame.refl (fun _ => False) h).congr (fun c => by simp [Impl.own, vec, hp]) (fun c => Iff.rfl)
  simp only [vcopyS, hnull, if_true, assignToNull, replaceEmpty, hsz, release, hp, noThrow_any]
  rw [if_neg (by omega)]
  cases hal : al 0
  · simp only [Bool.false_eq_true, if_false]
    obtain ⟨v0, f0⟩ := fresh_rep (hmm := hmm) hf (n := max src.length mn) (by omega) (by omega) 0
    obtain ⟨h1, o1, e1, v1, eo, f1⟩ := v0.copyAt (pos := 0) (src := src) (by omega) (fun _ _ _ => rfl)
    have ep := ptr_copyAt (mn := mn) (mx := mx) (h := h) (h' := h) eo
    rw [e1]
    cases hn : noThrow src
    · simp only [hn, Bool.false_eq_true, if_false] at v1
      simp only [Bool.not_false, Out.of_true, if_true]
      rw [← hlen] at v1
      refine ⟨h1, o1, rfl, ⟨rep_of v1 cells_nil.symm rfl (by simp), ?_⟩, (ho.trans f0).trans f1⟩
      rw [ep]; simp
    · simp only [hn, if_true, written_none] at v1
      simp only [Bool.not_true, Out.of_false, Bool.false_eq_true, if_false]
      refine ⟨h1, { o1 with size := src.length }, rfl, ⟨rep_of (c := cells ys) (n := src.length) ?_ rfl hlen.symm (by omega), ?_⟩, ?_⟩
      · rw [hlen]
        refine ⟨v1.1, ?_, rfl⟩
        rw [← hys]; exact v1.2.1
      · show _ ↔ o1.ptr = none
        rw [ep]; simp
      · exact (ho.trans f0).trans f1
  · exact ⟨h, o, rfl, v, Frame.refl _ _⟩

/-- Destruction. -/
theorem inv_dtor {h : Heap V} {o : Hdr V} {a : VA V} (v : vinv mn mx hmm h o a) :
    ∃ h1 o1 h', destroyAll h o = some (h1, o1) ∧ release h1 o1 = some h' ∧
      Frame ((vec V mn mx).own o) h (fun _ => False) h' := by
  cases a with
  | live xs cap nul =>
    obtain ⟨r, _⟩ := v
    have hm : mem h o = (cap, cells xs) := r.mem
    exact destroy_release r.1.1 (by rw [hm]; rfl) r.1.2.2 (by rw [hm]; exact r.2)
  | moved =>
    obtain ⟨h1, h2⟩ := v
    refine ⟨h, o, h, ?_, by simp only [release, h1], ?_⟩
    · obtain ⟨p, c, n, w⟩ := o
      subst h2 h1
      simp only [destroyAll, destroyRange, Option.map_some]
      rfl
    · exact (Frame.refl (fun _ => False) h).congr (fun c => by simp [Impl.own, vec, h1]) (fun c => Iff.rfl)

theorem inv_keep {h h' : Heap V} {o : Hdr V} {a : VA V} (v : vinv mn mx hmm h o a)
    (hk : ∀ b, (vec V mn mx).own o b → h'.blk b = h.blk b) : vinv mn mx hmm h' o a := by
  cases a with
  | live xs cap nul =>
    obtain ⟨r, hn⟩ := v
    have := (lawful mn mx hmm).wf_keep r.1.1 hk
    exact ⟨⟨⟨this.1, by rw [this.2]; exact r.1.2.1, r.1.2.2⟩, r.2⟩, hn⟩
  | moved => exact v

theorem inv_moved (h : Heap V) (cap : Nat) : vinv mn mx hmm h { ptr := none, cap := cap, size := 0 } .moved := ⟨rfl, rfl⟩

/-- The precondition of assignment holds by itself when the capacity is fixed. -/
theorem assign_fits {xs ys : List V} {cap : Nat} (hc : mn ≤ cap ∧ cap ≤ mx) (hx : xs.length ≤ cap)
    (hl : ys.length ≤ mx) (thr : Nat → Bool) :
    appendPre (vcfg mn mx) (xs.take (items ys thr).length, cap) ((items ys thr).length - xs.length) := by
  intro hr
  have : mn = mx := by simpa [vcfg] using hr
  simp only [items_length, List.length_take]
  omega

theorem copy_ok {h : Heap V} (hf : Fresh h) {o t : Hdr V} {a b : VA V} (v : vinv mn mx hmm h o a)
    (vt : vinv mn mx hmm h t b) (hap : ∀ c, (vec V mn mx).own o c → ¬ (vec V mn mx).own t c)
    {x : Out (Heap V × Hdr V)} {s : VA V × Bool}
    (g : ∃ h' o', x = Out.of s.2 (h', o') ∧ vinv mn mx hmm h' o' s.1 ∧
      Frame ((vec V mn mx).own o) h ((vec V mn mx).own o') h') :
    ∃ h' o' t', x.bind (fun r => .ok (r.1, r.2, t)) (fun r => (r.1, r.2, t)) = Out.of s.2 (h', o', t') ∧
      vinv mn mx hmm h' o' s.1 ∧ vinv mn mx hmm h' t' b ∧
      (∀ b, (vec V mn mx).own o' b → ¬ (vec V mn mx).own t' b) ∧
      Frame (fun b => (vec V mn mx).own o b ∨ (vec V mn mx).own t b) h
        (fun b => (vec V mn mx).own o' b ∨ (vec V mn mx).own t' b) h' := by
  obtain ⟨h', o', e, v', fr⟩ := g
  have hal : ∀ c, (vec V mn mx).own t c → h.blk c ≠ none := by
    intro c hc
    cases b with
    | live xs cap nul => exact (lawful mn mx hmm).wf_owned vt.1.1.1 hc
    | moved => exact absurd hc (not_own vt.1 c)
  refine ⟨h', o', t, ?_, v', ?_, ?_, fr.more _⟩
  · subst e; cases s.2 <;> rfl
  · exact inv_keep vt (fun c hc => fr.other (fun q => hap c q hc) (hal c hc))
  · intro c h1 h2
    exact hal c h2 (fr.new c (fun q => hap c q h2) h1)

/-- Every operation of `bounded_vector` by itself. -/
theorem laws (mn mx : Nat) (hmm : mn ≤ mx) : (vsys V mn mx).Laws (vinv mn mx hmm) where
  owned := by
    intro h o a b v hb
    cases a with
    | live xs cap nul => exact (lawful mn mx hmm).wf_owned v.1.1.1 hb
    | moved => exact absurd hb (not_own v.1 b)
  keep := fun v hk => inv_keep v hk
  un := by
    intro h o a u hf v hp
    cases a with
    | live xs cap nul => exact inv_good v (good_step v.1 hf u hp)
    | moved => exact absurd hp id
  bin := by
    intro h o t a b x hf v vt hap hp
    cases x with
    | move =>
      obtain ⟨h1, o1, h2, e1, e2, fr⟩ := inv_dtor v
      refine ⟨h2, t, { ptr := none, cap := t.cap, size := 0 }, ?_, ?_, inv_moved _ _, ?_, ?_⟩
      · show (match moveAssign h o t with | none => Out.ub | some r => .ok r) = _
        simp only [moveAssign, e1, e2]; rfl
      · exact inv_keep vt (fun c hc => fr.keep c (fun q => hap c q hc) id)
      · intro c _; exact not_own rfl c
      · exact (fr.more ((vec V mn mx).own t)).congr (fun c => Iff.rfl) (fun c => by
          simp [vsys, Impl.own, vec])
    | swap =>
      refine ⟨h, t, o, rfl, vt, v, fun c h1 h2 => hap c h2 h1, ?_⟩
      exact (Frame.refl (fun c => (vec V mn mx).own o c ∨ (vec V mn mx).own t c) h).congr (fun c => Iff.rfl) (fun c => Or.comm)
    | copy thr left al =>
      obtain ⟨hrd, hl⟩ := inv_read vt
      have key : ∃ h' o', (if o.ptr = none then assignToNull mn mx h o (items b.elems thr) al
          else (vec V mn mx).assign h o (items b.elems thr) left al) =
          Out.of (vcopyS mn mx a b.elems (items b.elems thr) (.assign (items b.elems thr) left al) al).2 (h', o') ∧
          vinv mn mx hmm h' o' (vcopyS mn mx a b.elems (items b.elems thr) (.assign (items b.elems thr) left al) al).1 ∧
          Frame ((vec V mn mx).own o) h ((vec V mn mx).own o') h' := by
        by_cases hn : o.ptr = none
        · rw [if_pos hn]
          exact assignToNull_ok hf v hn b.elems (items b.elems thr) (by simp) (by simpa using hl) _ al
        · rw [if_neg hn]
          have hnn : a.isNull = false := by
            rw [← Bool.not_eq_true]; exact fun q => hn ((inv_null v).1 q)
          cases a with
          | moved => cases hnn
          | live xs cap nul =>
            simp only [vcopyS, hnn, Bool.false_eq_true, if_false]
            exact inv_good v (good_step v.1 hf (.assign (items b.elems thr) left al)
              (assign_fits v.1.view.range v.1.2 hl thr))
      obtain ⟨h', o', t', e, g⟩ := copy_ok hf v vt hap key
      refine ⟨h', o', t', ?_, g⟩
      show (match readFrom (mem h t).1 (mem h t).2 0 t.size with | none => Out.ub | some vs => _) = _
      rw [hrd]; exact e
    | copyTrivial al =>
      obtain ⟨hrd, hl⟩ := inv_read vt
      have key : ∃ h' o', (if o.ptr = none then assignToNull mn mx h o (items b.elems fun _ => false) al
          else (vec V mn mx).assignTrivial h o (items b.elems fun _ => false) al) =
          Out.of (vcopyS mn mx a b.elems (items b.elems fun _ => false)
            (.assignTrivial (items b.elems fun _ => false) al) al).2 (h', o') ∧
          vinv mn mx hmm h' o' (vcopyS mn mx a b.elems (items b.elems fun _ => false)
            (.assignTrivial (items b.elems fun _ => false) al) al).1 ∧
          Frame ((vec V mn mx).own o) h ((vec V mn mx).own o') h' := by
        by_cases hn : o.ptr = none
        · rw [if_pos hn]
          exact assignToNull_ok hf v hn b.elems (items b.elems fun _ => false) (by simp) (by simpa using hl) _ al
        · rw [if_neg hn]
          have hnn : a.isNull = false := by
            rw [← Bool.not_eq_true]; exact fun q => hn ((inv_null v).1 q)
          cases a with
          | moved => cases hnn
          | live xs cap nul =>
            simp only [vcopyS, hnn, Bool.false_eq_true, if_false]
            refine inv_good v (good_step v.1 hf (.assignTrivial (items b.elems fun _ => false) al) ?_)
            intro _
            refine ⟨by rw [items_length]; exact hl, fun hc => hp hnn (by simpa using hc)⟩
      obtain ⟨h', o', t', e, g⟩ := copy_ok hf v vt hap key
      refine ⟨h', o', t', ?_, g⟩
      show (match readFrom (mem h t).1 (mem h t).2 0 t.size with | none => Out.ub | some vs => _) = _
      rw [hrd]; exact e
  self := by
    intro h o a x hf v _
    cases x with
    | move =>
      obtain ⟨h1, o1, h2, e1, e2, fr⟩ := inv_dtor v
      refine ⟨h2, { ptr := none, cap := o.cap, size := 0 }, ?_, inv_moved _ _, ?_⟩
      · show selfMove h o = _
        simp only [selfMove, e1, e2]; rfl
      · exact fr.congr (fun c => Iff.rfl) (fun c => by simp [vsys, Impl.own, vec])
    | swap => exact ⟨h, o, rfl, v, Frame.refl _ _⟩
    | copy _ _ _ => exact ⟨h, o, rfl, v, Frame.refl _ _⟩
    | copyTrivial _ => exact ⟨h, o, rfl, v, Frame.refl _ _⟩
  ctor := by
    intro h c hf hp
    cases c with
    | dflt fails =>
      cases ha : (decide (mn ≠ 0) && fails)
      · obtain ⟨h', o, e, w, m, s, fr, hn⟩ := (lawful (V := V) mn mx hmm).mk_ok hf ha
        refine ⟨h', o, ?_, ?_, ?_⟩
        · show (match new mn h fails with | .ok r => Made.ok r | .exn => .exn h | .ub => .ub) = Made.of (decide (mn ≠ 0) && fails) _ _
          rw [show new mn h fails = _ from e, ha]; rfl
        · intro q; rw [show ((vsys V mn mx).ctorS (.dflt fails)).2 = (decide (mn ≠ 0) && fails) from rfl, ha] at q; cases q
        · intro _
          refine ⟨⟨rep_of ⟨w, m, s⟩ cells_nil.symm rfl (by simp), ?_⟩, fr⟩
          by_cases h0 : mn = 0
          · simp only [h0, decide_true, true_iff]; exact hn h0
          · simp only [h0, decide_false, Bool.false_eq_true, false_iff]
            intro q
            have := congrArg Prod.fst m
            rw [vec_mem, mem_none q] at this
            exact h0 this.symm
      · have h1 : mn ≠ 0 ∧ fails = true := by simpa using ha
        refine ⟨h, { ptr := none, cap := 0, size := 0 }, ?_, fun _ => Frame.refl _ _, ?_⟩
        · show (match new mn h fails with | .ok r => Made.ok r | .exn => .exn h | .ub => .ub) = Made.of (decide (mn ≠ 0) && fails) _ _
          rw [ha]; simp [new, h1.1, h1.2]
        · intro q; rw [show ((vsys V mn mx).ctorS (.dflt fails)).2 = (decide (mn ≠ 0) && fails) from rfl, ha] at q; cases q
    | room n fails =>
      obtain ⟨h1, h2⟩ := hp
      have e : (vsys V mn mx).ctor (.room n fails) h = if fails then .exn h else
          .ok ((h.alloc n).1, { ptr := some (h.alloc n).2, cap := n, size := 0 }) := by
        show (if n < mn ∨ mx < n then Made.ub else _) = _
        rw [if_neg (by omega)]
      rw [e]
      cases fails with
      | true => exact ⟨h, { ptr := none, cap := 0, size := 0 }, rfl, fun _ => Frame.refl _ _, fun q => by cases q⟩
      | false =>
        obtain ⟨v, fr⟩ := fresh_rep (hmm := hmm) hf h1 h2 0
        exact ⟨_, _, rfl, fun q => (by cases q), fun _ => ⟨⟨rep_of v cells_nil.symm rfl (by simp), by simp⟩, fr⟩⟩
    | sized src fails => exact fromSized_ok hf src fails hp
    | unsized src al =>
      obtain ⟨hpp, hex⟩ := hp
      have ector : (vsys V mn mx).ctor (.unsized src al) h = fromUnsized mn mx h src al := rfl
      rw [ector]
      cases ha : (decide (mn ≠ 0) && al 0)
      · have espec : (vsys V mn mx).ctorS (.unsized src al) =
            (.live ((GOp.appendUnsized src fun k => al (k + 1)).spec (vcfg mn mx) ([], mn)).1.1
              ((GOp.appendUnsized src fun k => al (k + 1)).spec (vcfg mn mx) ([], mn)).1.2
              (nulAfter mn (decide (mn = 0)) ((GOp.appendUnsized src fun k => al (k + 1)).spec (vcfg mn mx) ([], mn)).1.2),
             ((GOp.appendUnsized src fun k => al (k + 1)).spec (vcfg mn mx) ([], mn)).2) := by
          show vctorS mn mx (.unsized src al) = _
          simp only [vctorS, ha, Bool.false_eq_true, if_false]
        rw [espec]
        obtain ⟨h1, o, e, w, m, s, fr, hn⟩ := (lawful (V := V) mn mx hmm).mk_ok hf ha
        have r0 : (lawful (V := V) mn mx hmm).Rep h1 o [] mn := rep_of ⟨w, m, s⟩ cells_nil.symm rfl (by simp)
        have hn' : decide (mn = 0) = true ↔ o.ptr = none := by
          by_cases h0 : mn = 0
          · simp only [h0, decide_true, true_iff]; exact hn h0
          · simp only [h0, decide_false, Bool.false_eq_true, false_iff]
            intro q
            have := congrArg Prod.fst m
            rw [vec_mem, mem_none q] at this
            exact h0 this.symm
        obtain ⟨h2, o2, e2, v2, f2⟩ := inv_good (hmm := hmm) (nul := decide (mn = 0)) ⟨r0, hn'⟩
          (good_appendUnsized r0 (fr.fresh hf) src (fun k => al (k + 1)) hpp)
        rw [cfg_eq] at e2 v2
        have e' : new mn h (al 0) = .ok (h1, o) := e
        simp only [fromUnsized, e', e2]
        cases hb : ((GOp.appendUnsized src fun k => al (k + 1)).spec (vcfg mn mx) ([], mn)).2
        · simp only [Out.of_false]
          exact ⟨h2, o2, rfl, fun q => (by cases q), fun _ => ⟨v2, fr.trans f2⟩⟩
        · simp only [Out.of_true]
          have hnil := hex hb
          rw [hnil] at v2
          obtain ⟨h3, e3, f3⟩ := release_raw (hmm := hmm) (h := h2) (o := o2)
            (cap := ((GOp.appendUnsized src fun k => al (k + 1)).spec (vcfg mn mx) ([], mn)).1.2) (n := 0) (by
              have := v2.1.view; rwa [cells_nil] at this)
          rw [e3]
          exact ⟨h3, o2, rfl, fun _ => (fr.trans f2).trans f3, fun q => by cases q⟩
      · have h1 : mn ≠ 0 ∧ al 0 = true := by simpa using ha
        have espec : (vsys V mn mx).ctorS (.unsized src al) = (.moved, true) := by
          show vctorS mn mx (.unsized src al) = _
          simp only [vctorS, ha, if_true]
        rw [espec]
        refine ⟨h, { ptr := none, cap := 0, size := 0 }, ?_, fun _ => Frame.refl _ _, fun q => by cases q⟩
        simp [fromUnsized, new, h1.1, h1.2]
  ctorFrom := by
    intro h t a x hf vt _
    cases x with
    | move =>
      refine ⟨h, t, { ptr := none, cap := t.cap, size := 0 }, rfl, inv_moved _ _, fun q => (by cases q), fun _ => ⟨vt, ?_, ?_⟩⟩
      · intro c _; exact not_own rfl c
      · exact (Frame.refl ((vec V mn mx).own t) h).congr (fun c => Iff.rfl) (fun c => by simp [vsys, Impl.own, vec])
    | copy thr fails =>
      obtain ⟨hrd, hl⟩ := inv_read vt
      obtain ⟨h', o, e, f1, f2⟩ := fromSized_ok (hmm := hmm) hf (items a.elems thr) fails (by simpa using hl)
      have hal : ∀ c, (vec V mn mx).own t c → h.blk c ≠ none := by
        intro c hc
        cases a with
        | live xs cap nul => exact (lawful mn mx hmm).wf_owned vt.1.1.1 hc
        | moved => exact absurd hc (not_own vt.1 c)
      have espec : (vsys V mn mx).ctorFromS (.copy thr fails) a =
        ((.live a.elems (max a.elems.length mn) false, a), fails || (items a.elems thr).any (·.throws)) := rfl
      have ec : (vsys V mn mx).ctorFrom (.copy thr fails) h t =
          (match fromSized mn mx h (items a.elems thr) fails with
          | .ub => .ub
          | .exn h' => .exn (h', t)
          | .ok (h', o) => .ok (h', o, t)) := by
        show (match readFrom (mem h t).1 (mem h t).2 0 t.size with | none => Made.ub | some vs => _) = _
        rw [hrd]
      rw [espec, ec, e]
      refine ⟨h', o, t, ?_, ?_, ?_, ?_⟩
      · cases (fails || (items a.elems thr).any (·.throws)) <;> rfl
      · cases hb : (fails || (items a.elems thr).any (·.throws))
        · exact inv_keep vt (fun c hc => (f2 hb).2.other id (hal c hc))
        · exact inv_keep vt (fun c hc => (f1 hb).other id (hal c hc))
      · intro hb
        exact ((f1 hb).more ((vec V mn mx).own t)).congr (fun c => by simp [vsys]) (fun c => by simp [vsys])
      · intro hb
        obtain ⟨v', fr⟩ := f2 hb
        refine ⟨?_, ?_, ?_⟩
        · have : (items a.elems thr).map (·.val) = a.elems := vals_items _ _
          rw [this, items_length] at v'; exact v'
        · intro c h1 h2; exact hal c h2 (fr.new c id h1)
        · exact (fr.more ((vec V mn mx).own t)).congr (fun c => by simp [vsys]) (fun c => Iff.rfl)
  dtor := by
    intro h o a v
    obtain ⟨h1, o1, h2, e1, e2, fr⟩ := inv_dtor v
    exact ⟨h2, by show dtor h o = _; simp only [dtor, e1, e2], fr⟩

end Vec

end Verif.Containers
