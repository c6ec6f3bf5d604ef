import Verif.Containers.Mem

/-!
# The heap, and what a contiguous container offers to the generic algorithms

`push_back`, `append`, `insert`, `erase`, `resize`, `assign`, `shrink_to_fit` and `clear` are
free functions written once against the members of the container (`size`, `capacity`,
`data`, `set_size`, `reserve`, `replace_empty_allocation`, construction, move assignment and
destruction). `Impl` collects those members, each container provides its own; `Lawful` is
what the generic algorithms rely on, and is proved for each container.
-/

namespace Verif.Containers

open Verif

variable {V O : Type}

/-- An allocated block: its number of slots and the slots. -/
structure Blk (V : Type) where
  cap : Nat
  cell : Cells V

/-- The heap: the blocks that are allocated, and the next block number. -/
structure Heap (V : Type) where
  blk : Nat → Option (Blk V)
  next : Nat

/-- source/containers/dynamic_array_data.cpp 39-66 `allocate_storage` when the allocator
succeeds: a new block of raw slots. -/
def Heap.alloc (h : Heap V) (n : Nat) : Heap V × Nat :=
  (⟨upd h.blk h.next (some ⟨n, fun _ => none⟩), h.next + 1⟩, h.next)

/-- source/containers/dynamic_array_data.cpp 68-74 `deallocate_storage`. Releasing a block that
is not allocated, releasing it with the wrong size, and releasing it while an element is
alive (its destructor would never run) are errors. -/
def Heap.free (h : Heap V) (b n : Nat) : Option (Heap V) :=
  match h.blk b with
  | none => none
  | some B => if B.cap = n ∧ ∀ k < n, (B.cell k).isNone then some ⟨upd h.blk b none, h.next⟩ else none

/-- Block numbers from `next` on are not allocated. -/
def Fresh (h : Heap V) : Prop := ∀ b, h.next ≤ b → h.blk b = none

/-- A step that starts owning the blocks `G` and ends owning the blocks `G'` touches nothing
else, releases what it no longer owns, and gains only blocks that were not allocated. -/
structure Frame (G : Nat → Prop) (h : Heap V) (G' : Nat → Prop) (h' : Heap V) : Prop where
  keep : ∀ b, ¬ G b → ¬ G' b → h'.blk b = h.blk b
  gone : ∀ b, G b → ¬ G' b → h'.blk b = none
  new : ∀ b, ¬ G b → G' b → h.blk b = none
  fresh : Fresh h → Fresh h'

theorem Frame.refl (G : Nat → Prop) (h : Heap V) : Frame G h G h :=
  ⟨fun _ _ _ => rfl, fun _ h1 h2 => absurd h1 h2, fun _ h1 h2 => absurd h2 h1, id⟩

theorem Frame.trans {G G' G'' : Nat → Prop} {h h' h'' : Heap V}
    (f : Frame G h G' h') (g : Frame G' h' G'' h'') : Frame G h G'' h'' where
  keep b h1 h2 := by
    by_cases h3 : G' b
    · rw [g.gone b h3 h2, f.new b h1 h3]
    · rw [g.keep b h3 h2, f.keep b h1 h3]
  gone b h1 h2 := by
    by_cases h3 : G' b
    · exact g.gone b h3 h2
    · rw [g.keep b h3 h2, f.gone b h1 h3]
  new b h1 h2 := by
    by_cases h3 : G' b
    · exact f.new b h1 h3
    · rw [← f.keep b h1 h3, g.new b h3 h2]
  fresh := g.fresh ∘ f.fresh

/-- Owning other blocks besides does not matter. -/
theorem Frame.more {G G' : Nat → Prop} {h h' : Heap V} (f : Frame G h G' h') (K : Nat → Prop) :
    Frame (fun b => G b ∨ K b) h (fun b => G' b ∨ K b) h' where
  keep b h1 h2 := f.keep b (fun x => h1 (.inl x)) (fun x => h2 (.inl x))
  gone b h1 h2 := by
    rcases h1 with h1 | h1
    · exact f.gone b h1 (fun x => h2 (.inl x))
    · exact absurd (.inr h1) h2
  new b h1 h2 := by
    rcases h2 with h2 | h2
    · exact f.new b (fun x => h1 (.inl x)) h2
    · exact absurd (.inr h2) h1
  fresh := f.fresh

theorem Frame.congr {G G' K K' : Nat → Prop} {h h' : Heap V} (f : Frame G h G' h')
    (h1 : ∀ b, G b ↔ K b) (h2 : ∀ b, G' b ↔ K' b) : Frame K h K' h' := by
  have e1 : G = K := funext fun b => propext (h1 b)
  have e2 : G' = K' := funext fun b => propext (h2 b)
  subst e1 e2; exact f

/-- A block that is allocated and not ours stays as it is. -/
theorem Frame.other {G G' : Nat → Prop} {h h' : Heap V} (f : Frame G h G' h') {b : Nat}
    (h1 : ¬ G b) (h2 : h.blk b ≠ none) : h'.blk b = h.blk b := by
  by_cases h3 : G' b
  · exact absurd (f.new b h1 h3) h2
  · exact f.keep b h1 h3

/-- The members of a container that the generic algorithms use. -/
structure Impl (V O : Type) where
  /-- the largest value of the type of `capacity()` -/
  mx : Nat
  /-- source/containers/reservable.cpp 17-18: is there a member `reserve`? -/
  reservable : Bool
  /-- the heap block the object refers to -/
  ptr : O → Option Nat
  /-- `size()` -/
  size : O → Nat
  /-- `capacity()`; `none` when its assertion fails -/
  capacity : O → Option Nat
  /-- the storage that `data()` refers to: number of slots, and the slots -/
  mem : Heap V → O → Nat × Cells V
  /-- the object and heap after changing the slots of that storage -/
  put : Heap V → O → Cells V → Heap V × O
  /-- `set_size(n)`; `none` when its assertion fails -/
  setSize : O → Nat → Option O
  /-- the default constructor; the flag says that an allocation fails -/
  new : Heap V → Bool → Res (Heap V × O)
  /-- `reserve(n)`; the flag says that an allocation fails -/
  reserve : Heap V → O → Nat → Bool → Out (Heap V × O)
  /-- `replace_empty_allocation(n)`; the flag says that an allocation fails -/
  replaceEmpty : Heap V → O → Nat → Bool → Out (Heap V × O)
  /-- `target = std::move(source)`, two different objects: heap, target, source -/
  moveAssign : Heap V → O → O → Option (Heap V × O × O)
  /-- the destructor -/
  dtor : Heap V → O → Option (Heap V)

namespace Impl

/-- The blocks an object owns. -/
def own (I : Impl V O) (o : O) : Nat → Prop := fun b => I.ptr o = some b

/-- Two objects do not own the same block. -/
def Apart (I : Impl V O) (o t : O) : Prop := ∀ b, I.own o b → ¬ I.own t b

end Impl

theorem Impl.Apart.symm {I : Impl V O} {o t : O} (h : I.Apart o t) : I.Apart t o :=
  fun b h1 h2 => h b h2 h1

/-- What the generic algorithms rely on. `mn` is the capacity of a default constructed
object, `mkA` says whether the default constructor allocates. -/
structure Lawful (I : Impl V O) (mn : Nat) (mkA : Bool) where
  /-- the object is in a usable state -/
  wf : Heap V → O → Prop
  wf_cap : ∀ {h o}, wf h o → I.capacity o = some (I.mem h o).1
  wf_range : ∀ {h o}, wf h o → mn ≤ (I.mem h o).1 ∧ (I.mem h o).1 ≤ I.mx
  wf_owned : ∀ {h o b}, wf h o → I.own o b → h.blk b ≠ none
  wf_keep : ∀ {h h' o}, wf h o → (∀ b, I.own o b → h'.blk b = h.blk b) →
    wf h' o ∧ I.mem h' o = I.mem h o
  put_law : ∀ {h o} (c : Cells V), wf h o →
    wf (I.put h o c).1 (I.put h o c).2 ∧ I.mem (I.put h o c).1 (I.put h o c).2 = ((I.mem h o).1, c) ∧
    I.size (I.put h o c).2 = I.size o ∧ I.ptr (I.put h o c).2 = I.ptr o ∧
    Frame (I.own o) h (I.own o) (I.put h o c).1
  size_law : ∀ {h o n}, wf h o → n ≤ (I.mem h o).1 → ∃ o', I.setSize o n = some o' ∧ wf h o' ∧
    I.mem h o' = I.mem h o ∧ I.size o' = n ∧ I.ptr o' = I.ptr o
  mk_exn : ∀ {h}, mkA = true → I.new h true = .exn
  mk_ok : ∀ {h f}, Fresh h → (mkA && f) = false → ∃ h' o, I.new h f = .ok (h', o) ∧ wf h' o ∧
    I.mem h' o = (mn, fun _ => none) ∧ I.size o = 0 ∧ Frame (fun _ => False) h (I.own o) h' ∧
    (mn = 0 → I.ptr o = none)
  reserve_none : ∀ {h o n f}, wf h o → n ≤ (I.mem h o).1 → I.reserve h o n f = .ok (h, o)
  reserve_exn : ∀ {h o n}, I.reservable = true → wf h o → (I.mem h o).1 < n → n ≤ I.mx →
    I.reserve h o n true = .exn (h, o)
  reserve_ok : ∀ {h o n} {xs : List V}, I.reservable = true → Fresh h → wf h o →
    (I.mem h o).2 = (fun k => xs[k]?) → I.size o = xs.length → xs.length ≤ (I.mem h o).1 →
    (I.mem h o).1 < n → n ≤ I.mx →
    ∃ h' o', I.reserve h o n false = .ok (h', o') ∧ wf h' o' ∧ I.mem h' o' = (n, fun k => xs[k]?) ∧
      I.size o' = xs.length ∧ Frame (I.own o) h (I.own o') h'
  replace_ok : ∀ {h o n}, I.reservable = true → Fresh h → wf h o → (I.mem h o).2 = (fun _ => none) →
    I.size o = 0 → (I.mem h o).1 < n → n ≤ I.mx →
    ∃ h' o', I.replaceEmpty h o n false = .ok (h', o') ∧ wf h' o' ∧
      I.mem h' o' = (n, fun _ => none) ∧ I.size o' = 0 ∧ Frame (I.own o) h (I.own o') h'
  /-- Move assignment to an object without elements. The size of the source may not say how
  many of its elements are alive (source/containers/lazy_push_back.cpp 63-67) if it has
  allocated storage. -/
  move_law : ∀ {h o t}, I.reservable = true → wf h o → wf h t → I.Apart o t → (I.mem h o).2 = (fun _ => none) → I.size o = 0 →
    (mn < (I.mem h t).1 ∨ ∃ xs : List V, (I.mem h t).2 = (fun k => xs[k]?) ∧ I.size t = xs.length ∧
      xs.length ≤ (I.mem h t).1) →
    ∃ h' o' t', I.moveAssign h o t = some (h', o', t') ∧ wf h' o' ∧ I.mem h' o' = I.mem h t ∧
      I.size o' = I.size t ∧ I.dtor h' t' = some h' ∧ I.ptr o' = I.ptr t ∧
      Frame (fun b => I.own o b ∨ I.own t b) h (I.own o') h'
  dtor_law : ∀ {h o} {xs : List V}, wf h o → (I.mem h o).2 = (fun k => xs[k]?) → I.size o = xs.length →
    xs.length ≤ (I.mem h o).1 → ∃ h', I.dtor h o = some h' ∧ Frame (I.own o) h (fun _ => False) h'

namespace Lawful

variable {I : Impl V O} {mn : Nat} {mkA : Bool}

/-- The object is usable, has `cap` slots with contents `c`, and says its size is `n`. -/
def View (L : Lawful I mn mkA) (h : Heap V) (o : O) (cap : Nat) (c : Cells V) (n : Nat) : Prop :=
  L.wf h o ∧ I.mem h o = (cap, c) ∧ I.size o = n

/-- The object holds exactly the elements `xs`: slots `[0, size)` are alive and no other. -/
def Rep (L : Lawful I mn mkA) (h : Heap V) (o : O) (xs : List V) (cap : Nat) : Prop :=
  L.View h o cap (fun k => xs[k]?) xs.length ∧ xs.length ≤ cap

variable {L : Lawful I mn mkA}

theorem View.cap {h : Heap V} {o : O} {cap n : Nat} {c : Cells V} (v : L.View h o cap c n) :
    I.capacity o = some cap := by rw [L.wf_cap v.1, v.2.1]

theorem View.range {h : Heap V} {o : O} {cap n : Nat} {c : Cells V} (v : L.View h o cap c n) :
    mn ≤ cap ∧ cap ≤ I.mx := by have := L.wf_range v.1; rwa [v.2.1] at this

/-- A step on another object leaves this one as it is. -/
theorem View.keep {h h' : Heap V} {t : O} {cap n : Nat} {c : Cells V} {G G' : Nat → Prop}
    (v : L.View h t cap c n) (f : Frame G h G' h') (ha : ∀ b, I.own t b → ¬ G b) :
    L.View h' t cap c n := by
  have := L.wf_keep v.1 (h' := h') (fun b hb => f.other (ha b hb) (L.wf_owned v.1 hb))
  exact ⟨this.1, by rw [this.2, v.2.1], v.2.2⟩

/-- What a step gains is not owned by anyone else. -/
theorem View.apart {h h' : Heap V} {t o' : O} {cap n : Nat} {c : Cells V} {G : Nat → Prop}
    (v : L.View h t cap c n) (f : Frame G h (I.own o') h') (ha : ∀ b, I.own t b → ¬ G b) :
    I.Apart o' t := by
  intro b h1 h2
  exact L.wf_owned v.1 h2 (f.new b (ha b h2) h1)

theorem View.put {h : Heap V} {o : O} {cap n : Nat} {c : Cells V} (v : L.View h o cap c n) (c' : Cells V) :
    L.View (I.put h o c').1 (I.put h o c').2 cap c' n ∧ I.own (I.put h o c').2 = I.own o ∧
    Frame (I.own o) h (I.own (I.put h o c').2) (I.put h o c').1 := by
  obtain ⟨h1, h2, h3, h4, h5⟩ := L.put_law c' v.1
  have e : I.own (I.put h o c').2 = I.own o := by funext b; simp [Impl.own, h4]
  refine ⟨⟨h1, by rw [h2, v.2.1], by rw [h3, v.2.2]⟩, e, ?_⟩
  rw [e]; exact h5

theorem View.setSize {h : Heap V} {o : O} {cap n : Nat} {c : Cells V} (v : L.View h o cap c n) {n' : Nat}
    (hn : n' ≤ cap) : ∃ o', I.setSize o n' = some o' ∧ L.View h o' cap c n' ∧ I.own o' = I.own o := by
  obtain ⟨o', h1, h2, h3, h4, h5⟩ := L.size_law (n := n') v.1 (by rw [v.2.1]; exact hn)
  exact ⟨o', h1, ⟨h2, by rw [h3, v.2.1], h4⟩, by funext b; simp [Impl.own, h5]⟩

end Lawful

end Verif.Containers
