import Verif.Base.Hist

/-!
# Optional references (property C91)

`tv::optional<T &>` (source/tv/optional.cpp 219-260) is a pointer that may be null. The
model has a memory of objects at non-zero addresses and any number of optionals.
-/

namespace Verif.Tv

open Verif

variable {V : Type}

/-- The storage of `optional<T &>` (source/tv/optional.cpp 259): an address, 0 is
`nullptr`. -/
structure RefStore where
  ptr : Nat
  deriving DecidableEq, Repr

namespace RefStore

/-- source/tv/optional.cpp 221-224. -/
def mkNone : RefStore := ⟨0⟩

/-- source/tv/optional.cpp 226-234: `std::addressof` of the object. -/
def bindTo (addr : Nat) : RefStore := ⟨addr⟩

/-- source/tv/optional.cpp 236-238. -/
def isInit (s : RefStore) : Bool := decide (s.ptr ≠ 0)

/-- source/tv/optional.cpp 240-242. -/
def uninitialize (_ : RefStore) : RefStore := ⟨0⟩

/-- source/tv/optional.cpp 244-247. -/
def rebind (_ : RefStore) (addr : Nat) : RefStore := ⟨addr⟩

/-- source/tv/optional.cpp 249-251, behind the assertion of 322-333. -/
def get (s : RefStore) : Res Nat := if s.isInit then .ok s.ptr else .ub

end RefStore

/-- The objects at their addresses, the optionals, and what has been read so far. -/
structure RefWorld (V O : Type) where
  mem : Nat → V
  opt : Nat → Option O
  seen : List (Sum Bool V)

/-- Operations on a family of optional references. -/
inductive ROp (V : Type) where
  /-- `optional<T &>()`, `optional<T &>(none)` (304-305). -/
  | createNone (i : Nat)
  /-- `optional<T &>(object)`, `optional<T &>(lazy_init, f)` (307-315). -/
  | create (i addr : Nat)
  /-- Copy and move construction (317-318). There is no assignment from another optional
  (319-320: `non_reference`). -/
  | createFrom (i j : Nat)
  /-- `x = none` (345-348). -/
  | setNone (i : Nat)
  /-- `x.emplace(f)` (341-343). -/
  | emplace (i addr : Nat)
  /-- `*x = value`. -/
  | write (i : Nat) (v : V)
  /-- Reading `*x`. -/
  | read (i : Nat)
  /-- Reading `bool(x)`, `x == none` (337-339, 361-363). -/
  | test (i : Nat)
  /-- The object is written without the optional. -/
  | poke (addr : Nat) (v : V)
  | destroy (i : Nat)

/-- One operation of the code. -/
def rstep (w : RefWorld V RefStore) : ROp V → Out (RefWorld V RefStore)
  | .createNone i =>
    match w.opt i with
    | some _ => .ub
    | none => .ok { w with opt := upd w.opt i (some .mkNone) }
  | .create i a =>
    match w.opt i with
    | some _ => .ub
    | none => .ok { w with opt := upd w.opt i (some (.bindTo a)) }
  | .createFrom i j =>
    match w.opt i, w.opt j with
    | none, some s => .ok { w with opt := upd w.opt i (some s) }
    | _, _ => .ub
  | .setNone i =>
    match w.opt i with
    | some s => .ok { w with opt := upd w.opt i (some s.uninitialize) }
    | none => .ub
  | .emplace i a =>
    match w.opt i with
    | some s => .ok { w with opt := upd w.opt i (some (s.rebind a)) }
    | none => .ub
  | .write i v =>
    match w.opt i with
    | some s =>
      match s.get with
      | .ok a => .ok { w with mem := upd w.mem a v }
      | _ => .ub
    | none => .ub
  | .read i =>
    match w.opt i with
    | some s =>
      match s.get with
      | .ok a => .ok { w with seen := .inr (w.mem a) :: w.seen }
      | _ => .ub
    | none => .ub
  | .test i =>
    match w.opt i with
    | some s => .ok { w with seen := .inl s.isInit :: w.seen }
    | none => .ub
  | .poke a v => .ok { w with mem := upd w.mem a v }
  | .destroy i =>
    match w.opt i with
    | some _ => .ok { w with opt := upd w.opt i none }
    | none => .ub

/-! ## Specification -/

/-- An optional reference is the name of an object, or nothing. No operation of the
optional changes an object, apart from writing through it; no operation on one optional
changes another one. -/
def rspec (w : RefWorld V (Option Nat)) : ROp V → RefWorld V (Option Nat) × Bool
  | .createNone i | .setNone i => ({ w with opt := upd w.opt i (some none) }, false)
  | .create i a | .emplace i a => ({ w with opt := upd w.opt i (some (some a)) }, false)
  | .createFrom i j => ({ w with opt := upd w.opt i (w.opt j) }, false)
  | .write i v =>
    match w.opt i with
    | some (some a) => ({ w with mem := upd w.mem a v }, false)
    | _ => (w, false)
  | .read i =>
    match w.opt i with
    | some (some a) => ({ w with seen := .inr (w.mem a) :: w.seen }, false)
    | _ => (w, false)
  | .test i =>
    match w.opt i with
    | some o => ({ w with seen := .inl o.isSome :: w.seen }, false)
    | none => (w, false)
  | .poke a v => ({ w with mem := upd w.mem a v }, false)
  | .destroy i => ({ w with opt := upd w.opt i none }, false)

/-- Objects have non-zero addresses; only existing optionals are used and only those with
an object are dereferenced. -/
def rpre (w : RefWorld V (Option Nat)) : ROp V → Prop
  | .createNone i => w.opt i = none
  | .create i a => w.opt i = none ∧ a ≠ 0
  | .createFrom i j => w.opt i = none ∧ (w.opt j).isSome
  | .setNone i | .test i | .destroy i => (w.opt i).isSome
  | .emplace i a => (w.opt i).isSome ∧ a ≠ 0
  | .write i _ | .read i => ∃ a, w.opt i = some (some a)
  | .poke a _ => a ≠ 0

/-- The pointer represents the name. -/
def refOf : Option Nat → RefStore
  | none => ⟨0⟩
  | some a => ⟨a⟩

/-- The worlds agree: the same objects, the same observations, and pointers for names. -/
structure RRel (w : RefWorld V RefStore) (a : RefWorld V (Option Nat)) : Prop where
  mem : w.mem = a.mem
  seen : w.seen = a.seen
  opt : ∀ i, w.opt i = (a.opt i).map refOf
  pos : ∀ i x, a.opt i = some (some x) → x ≠ 0

theorem RRel.upd {w : RefWorld V RefStore} {a : RefWorld V (Option Nat)} (h : RRel w a) (i : Nat)
    (o : Option (Option Nat)) (ho : ∀ x, o = some (some x) → x ≠ 0) :
    RRel { w with opt := Verif.upd w.opt i (o.map refOf) } { a with opt := Verif.upd a.opt i o } := by
  refine ⟨h.mem, h.seen, ?_, ?_⟩
  · intro k
    simp only [Verif.upd]
    split
    · rfl
    · exact h.opt k
  · intro k x
    simp only [Verif.upd]
    split
    · exact ho x
    · exact h.pos k x

theorem rstep_refines (w : RefWorld V RefStore) (a : RefWorld V (Option Nat)) (op : ROp V)
    (h : RRel w a) (hp : rpre a op) :
    ∃ w', rstep w op = Out.of (rspec a op).2 w' ∧ RRel w' (rspec a op).1 := by
  cases op with
  | createNone i =>
    have hi : w.opt i = none := by rw [h.opt i, (show a.opt i = none from hp)]; rfl
    exact ⟨_, by simp only [rstep, rspec, hi]; rfl, h.upd i (some none) (by simp)⟩
  | create i x =>
    have hi : w.opt i = none := by rw [h.opt i, (show a.opt i = none from hp.1)]; rfl
    refine ⟨_, by simp only [rstep, rspec, hi]; rfl, h.upd i (some (some x)) ?_⟩
    intro y hy
    simp only [Option.some.injEq] at hy
    exact hy ▸ hp.2
  | createFrom i j =>
    obtain ⟨o, ho⟩ := Option.isSome_iff_exists.1 hp.2
    have hi : w.opt i = none := by rw [h.opt i, (show a.opt i = none from hp.1)]; rfl
    have hj : w.opt j = some (refOf o) := by rw [h.opt j, ho]; rfl
    refine ⟨_, by simp only [rstep, rspec, hi, hj]; rfl, ?_⟩
    simp only [rspec, ho]
    exact h.upd i (some o) fun x hx => h.pos j x (ho.trans hx)
  | setNone i =>
    obtain ⟨o, ho⟩ := Option.isSome_iff_exists.1 hp
    have hi : w.opt i = some (refOf o) := by rw [h.opt i, ho]; rfl
    exact ⟨_, by simp only [rstep, rspec, hi]; rfl, h.upd i (some none) (by simp)⟩
  | emplace i x =>
    obtain ⟨o, ho⟩ := Option.isSome_iff_exists.1 hp.1
    have hi : w.opt i = some (refOf o) := by rw [h.opt i, ho]; rfl
    refine ⟨_, by simp only [rstep, rspec, hi]; rfl, h.upd i (some (some x)) ?_⟩
    intro y hy
    simp only [Option.some.injEq] at hy
    exact hy ▸ hp.2
  | write i v =>
    obtain ⟨x, hx⟩ := hp
    have hi : w.opt i = some ⟨x⟩ := by rw [h.opt i, hx]; rfl
    have h0 := h.pos i x hx
    refine ⟨{ w with mem := Verif.upd w.mem x v }, by simp [rstep, rspec, hi, hx, RefStore.get, RefStore.isInit, h0], ?_⟩
    simp only [rspec, hx]
    exact ⟨by rw [h.mem], h.seen, h.opt, h.pos⟩
  | read i =>
    obtain ⟨x, hx⟩ := hp
    have hi : w.opt i = some ⟨x⟩ := by rw [h.opt i, hx]; rfl
    have h0 := h.pos i x hx
    refine ⟨{ w with seen := .inr (w.mem x) :: w.seen }, by simp [rstep, rspec, hi, hx, RefStore.get, RefStore.isInit, h0], ?_⟩
    simp only [rspec, hx]
    exact ⟨h.mem, by simp only [h.mem, h.seen], h.opt, h.pos⟩
  | test i =>
    obtain ⟨o, ho⟩ := Option.isSome_iff_exists.1 hp
    have hi : w.opt i = some (refOf o) := by rw [h.opt i, ho]; rfl
    have hb : (refOf o).isInit = o.isSome := by
      cases o with
      | none => rfl
      | some x => simp [refOf, RefStore.isInit, h.pos i x ho]
    refine ⟨{ w with seen := .inl (refOf o).isInit :: w.seen }, by simp [rstep, rspec, hi, ho], ?_⟩
    simp only [rspec, ho]
    exact ⟨h.mem, by simp only [hb, h.seen], h.opt, h.pos⟩
  | poke x v =>
    exact ⟨_, rfl, ⟨by simp only [rspec, h.mem], h.seen, h.opt, h.pos⟩⟩
  | destroy i =>
    obtain ⟨o, ho⟩ := Option.isSome_iff_exists.1 hp
    have hi : w.opt i = some (refOf o) := by rw [h.opt i, ho]; rfl
    exact ⟨_, by simp only [rstep, rspec, hi]; rfl, h.upd i none (by simp)⟩

/-- **C91.** After every history of operations on optional references and on the objects,
every optional names the object that it was last bound to (or nothing), everything that
was read through an optional is what its object held at that time, and the objects changed
only by writes. No operation throws and none is undefined. -/
theorem C91_optional_reference_history (ops : List (ROp V)) (mem : Nat → V)
    (hp : PreHist rspec rpre ⟨mem, fun _ => none, []⟩ ops) :
    ∃ w', runHist rstep ⟨mem, fun _ => none, []⟩ ops =
        some (w', (specHist rspec ⟨mem, fun _ => none, []⟩ ops).2) ∧
      w'.mem = (specHist rspec ⟨mem, fun _ => none, []⟩ ops).1.mem ∧
      w'.seen = (specHist rspec ⟨mem, fun _ => none, []⟩ ops).1.seen ∧
      ∀ i, w'.opt i = ((specHist rspec ⟨mem, fun _ => none, []⟩ ops).1.opt i).map refOf := by
  have h0 : RRel (V := V) ⟨mem, fun _ => none, []⟩ ⟨mem, fun _ => none, []⟩ :=
    ⟨rfl, rfl, fun _ => rfl, by simp⟩
  obtain ⟨w', h1, h2⟩ := runHist_refines (fun s a o => rstep_refines s a o) ops _ _ h0 hp
  exact ⟨w', h1, h2.mem, h2.seen, h2.opt⟩

/-- **C91.** Rebinding or emptying an optional reference leaves all objects and all other
optionals as they were. -/
theorem C91_rebind_changes_no_object (w w' : RefWorld V RefStore) (i x : Nat)
    (h : rstep w (.emplace i x) = .ok w' ∨ rstep w (.setNone i) = .ok w') :
    w'.mem = w.mem ∧ ∀ k, k ≠ i → w'.opt k = w.opt k := by
  rcases h with h | h <;> simp only [rstep] at h <;> split at h <;> cases h <;>
    exact ⟨rfl, fun k hk => upd_other _ _ hk⟩

/-- **C91.** Dereferencing an optional reference is defined exactly if it is bound. -/
theorem C91_dereference_iff (o : Option Nat) (ho : ∀ x, o = some x → x ≠ 0) :
    (refOf o).get ≠ .ub ↔ o.isSome := by
  cases o with
  | none => simp [refOf, RefStore.get, RefStore.isInit]
  | some x => simp [refOf, RefStore.get, RefStore.isInit, ho x rfl]

/-- Two optionals bound to one object: a write through the first is read through the
copy; after rebinding the first, it is not. -/
def exampleRefs : List (ROp Nat) :=
  [.create 0 7, .createFrom 1 0, .write 0 5, .read 1, .emplace 0 8, .write 0 6, .read 1, .setNone 0, .test 0]

example : PreHist rspec rpre ⟨fun _ => 0, fun _ => none, []⟩ exampleRefs := by
  simp [exampleRefs, PreHist, rspec, rpre, upd]

example : (specHist rspec ⟨fun _ => 0, fun _ => none, []⟩ exampleRefs).1.seen = [.inl false, .inr 5, .inr 5] := by
  rfl

end Verif.Tv
