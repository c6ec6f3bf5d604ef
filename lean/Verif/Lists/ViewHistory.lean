import Verif.Lists.AssignThrowing

/-!
# Histories of lists that are also filled from views whose functions throw

Any sequence of the operations of `containers::list` (C58) and of construction, `append`, `insert` and `assign` of views whose functions throw (C121), on any number of
lists. Where an exception comes depends on the functions, so the specification is a relation.
-/

namespace Verif.Lists

open Verif Verif.Views Verif.Views.Calling Verif.Containers

variable {V : Type}

/-! ## Model -/

/-- A view with the state of its functions at the beginning, how its elements are converted, which allocations fail when it is used, and a bound of its length
(see `PipeC.Fits`). -/
structure Source (V : Type) : Type 1 where
  {τ : Type}
  {ρ : Type}
  view : PipeC τ ρ
  state : τ
  conv : ρ → Item V
  noMem : Nat → Bool
  bound : Nat

/-- What a user can do: the operations of C58 (source/containers/std/list.cpp), and those that take a view. -/
inductive VOp (V : Type) : Type 1
  | base (op : SOp V)
  | construct (v : Source V)
  | append (l : Nat) (v : Source V)
  | insert (l pos : Nat) (v : Source V)
  | assign (l : Nat) (left : V) (v : Source V)

/-- One operation of the library (source/containers/std/list.cpp 60-62, append.cpp 74-82, insert.cpp 110-113, assign.cpp 81-91 in source/containers). -/
def vstep (s : SHeap V) : VOp V → Out (SHeap V)
  | .base op => sstep s op
  | .construct v => s.makeFromViewC v.bound v.view v.conv v.noMem v.state
  | .append l v => s.appendViewC l v.bound v.view v.conv v.noMem v.state
  | .insert l pos v => s.insertViewC l pos v.bound v.view v.conv v.noMem v.state
  | .assign l left v => s.assignViewC l left v.bound v.view v.conv v.noMem v.state

/-! ## Specification -/

namespace Source

/-- The values of the elements. -/
def values (v : Source V) : List V := v.view.denote.map fun x => (v.conv x).val

/-- The first `n` elements were taken, see `Took`. -/
def TookN (v : Source V) (n : Nat) (thrown : Bool) : Prop := Took v.view.Quiet v.conv v.noMem v.view.denote n thrown

end Source

/-- What an operation may do, and whether it throws. How many numbers of nodes an `assign` uses up is left open. -/
inductive VSpec (S : SAbs V) : VOp V → Bool → SAbs V → Prop
  | base (op : SOp V) : VSpec S (.base op) (S.spec op).2 (S.spec op).1
  | constructed (v : Source V) (n : Nat) (h : v.TookN n false) :
    VSpec S (.construct v) false ⟨(S.abs.set S.abs.next (number (S.abs.next + 1) v.values)).use (1 + n), upd S.stale S.abs.next false⟩
  | notConstructed (v : Source V) (n : Nat) (h : v.TookN n true) : VSpec S (.construct v) true ⟨S.abs.use (1 + n), upd S.stale S.abs.next false⟩
  | append (l : Nat) (v : Source V) (n : Nat) (thrown : Bool) (h : v.TookN n thrown) :
    VSpec S (.append l v) thrown ⟨(S.abs.set l (S.abs.at' l ++ number S.abs.next (v.values.take n))).use n, S.stale⟩
  | inserted (l pos : Nat) (v : Source V) (n : Nat) (h : v.TookN n false) :
    VSpec S (.insert l pos v) false
      ⟨(S.abs.set l (before pos (S.abs.at' l) ++ number (S.abs.next + 1) v.values ++ fromPos pos (S.abs.at' l))).use (1 + n), S.stale⟩
  | notInserted (l pos : Nat) (v : Source V) (n : Nat) (h : v.TookN n true) : VSpec S (.insert l pos v) true ⟨S.abs.use (1 + n), S.stale⟩
  | assigned (l : Nat) (left : V) (v : Source V) (used : Nat) (h : ∀ x ∈ v.view.denote, (v.conv x).throws = false) :
    VSpec S (.assign l left v) false
      ⟨(S.abs.set l (overwrite (S.abs.at' l) v.values ++ number (S.abs.next + 1) (v.values.drop (S.abs.at' l).length))).use used, S.stale⟩
  | notAssigned (l : Nat) (left : V) (v : Source V) (used : Nat) (zs : List (Nat × V))
    (h : Partly v.view.Quiet v.noMem left (S.abs.next + 1) (S.abs.at' l) (v.view.denote.map v.conv) zs) :
    VSpec S (.assign l left v) true ⟨(S.abs.set l zs).use used, S.stale⟩

/-- What the caller has to provide: lists and positions that exist. -/
def VPre (S : SAbs V) : VOp V → Prop
  | .base op => S.pre op
  | .construct v => v.view.Fits v.bound
  | .append l v => S.abs.Has l ∧ v.view.Fits v.bound
  | .insert l pos v => S.abs.Has l ∧ ValidPos l (S.abs.at' l) pos ∧ v.view.Fits v.bound
  | .assign l _ v => S.abs.Has l ∧ v.view.Fits v.bound

/-- The caller provides it at each operation, wherever the exceptions before came. -/
def VLegal (S : SAbs V) : List (VOp V) → Prop
  | [] => True
  | op :: ops => VPre S op ∧ ∀ thrown S', VSpec S op thrown S' → VLegal S' ops

/-- What a history may do, and which operations throw. -/
inductive VRun : SAbs V → List (VOp V) → List Bool → SAbs V → Prop
  | nil (S : SAbs V) : VRun S [] [] S
  | cons {S S' S'' : SAbs V} {op : VOp V} {ops : List (VOp V)} {thrown : Bool} {bs : List Bool} (h : VSpec S op thrown S') (t : VRun S' ops bs S'') :
    VRun S (op :: ops) (thrown :: bs) S''

/-! ## Proofs -/

theorem vstep_refines {s : SHeap V} {S : SAbs V} (r : SRel s S.abs S.stale) (op : VOp V) (hp : VPre S op) :
    ∃ s' thrown S', vstep s op = Out.of thrown s' ∧ VSpec S op thrown S' ∧ SRel s' S'.abs S'.stale := by
  cases op with
  | base op =>
    obtain ⟨s', e, r'⟩ := sstep_refines s S op r hp
    exact ⟨s', _, _, e, .base op, r'⟩
  | construct v =>
    obtain ⟨n, thrown, s', e, tk, r'⟩ := C121_sized_construct r v.view hp v.conv v.noMem v.state
    cases thrown with
    | true => exact ⟨s', true, _, e, .notConstructed v n tk, r'⟩
    | false => exact ⟨s', false, _, e, .constructed v n tk, r'⟩
  | append l v =>
    obtain ⟨⟨xs, hl⟩, hf⟩ := hp
    obtain ⟨n, thrown, s', e, tk, r'⟩ := C121_sized_append r hl v.view hf v.conv v.noMem v.state
    refine ⟨s', thrown, _, e, .append l v n thrown tk, ?_⟩
    rw [Abs.at_of hl, Source.values, ← List.map_take]
    exact r'
  | insert l pos v =>
    obtain ⟨⟨xs, hl⟩, hv, hf⟩ := hp
    rw [Abs.at_of hl] at hv
    obtain ⟨n, thrown, s', e, tk, r'⟩ := C121_sized_insert r hl hv v.view hf v.conv v.noMem v.state
    cases thrown with
    | true => exact ⟨s', true, _, e, .notInserted l pos v n tk, r'⟩
    | false =>
      refine ⟨s', false, _, e, .inserted l pos v n tk, ?_⟩
      rw [Abs.at_of hl]
      exact r'
  | assign l left v =>
    obtain ⟨⟨xs, hl⟩, hf⟩ := hp
    obtain ⟨thrown, s', zs, used, e, r', h0, h1⟩ := C121_sized_assign r hl left v.view hf v.conv v.noMem v.state
    cases thrown with
    | true => exact ⟨s', true, _, e, .notAssigned l left v used zs (by rw [Abs.at_of hl]; exact h1 rfl), r'⟩
    | false =>
      refine ⟨s', false, _, e, .assigned l left v used (h0 rfl).2, ?_⟩
      rw [Abs.at_of hl, Source.values, ← (h0 rfl).1]
      exact r'

/-- **C121**, histories: any sequence of operations of `containers::list`, among them construction, `append`, `insert` and `assign` of views whose functions throw, runs
without undefined behaviour and does what the specification allows: every list is linked in both directions and holds the sequence it says, no node is lost or shared, and
`size()` is the number of elements of every list that is not stale. Missing: the size of the lists that C58 says are stale. -/
theorem C121_history_partial (ops : List (VOp V)) : ∀ {s : SHeap V} {S : SAbs V}, SRel s S.abs S.stale → VLegal S ops →
    ∃ s' bs S', runHist vstep s ops = some (s', bs) ∧ VRun S ops bs S' ∧ LShows s'.h S'.abs ∧
      ∀ l xs, S'.abs.lists l = some xs → S'.stale l = false → s'.sizeOf l = xs.length % 2 ^ 64 := by
  induction ops with
  | nil => exact fun {s S} r _ => ⟨s, [], S, rfl, .nil S, r.rel.shows, fun l xs hl hs => r.sizeOf hl hs⟩
  | cons op ops ih =>
    intro s S r hp
    obtain ⟨s1, thrown, S1, e, hs, r1⟩ := vstep_refines r op hp.1
    obtain ⟨s2, bs, S2, e2, run, h2⟩ := ih r1 (hp.2 thrown S1 hs)
    refine ⟨s2, thrown :: bs, S2, ?_, .cons hs run, h2⟩
    rw [runHist, e]
    cases thrown <;> simp [e2]

/-- **C121**, histories from the beginning, when there is no list. -/
theorem C121_history_from_start_partial (ops : List (VOp V)) (hp : VLegal (SAbs.start V) ops) :
    ∃ s' bs S', runHist vstep (SHeap.start V) ops = some (s', bs) ∧ VRun (SAbs.start V) ops bs S' ∧ LShows s'.h S'.abs ∧
      ∀ l xs, S'.abs.lists l = some xs → S'.stale l = false → s'.sizeOf l = xs.length % 2 ^ 64 :=
  C121_history_partial ops (S := SAbs.start V) ⟨rel_start V, fun hl => by cases hl⟩ hp

/-! ## Cases -/

/-- Two odd numbers; the call 6 of the predicate throws. -/
def oddSource (t : Nat) : Source Nat := ⟨twoOdd, t, plain, fun _ => false, 100⟩

/-- A list is made from a view and gets the view inserted at its front and appended; the first exception leaves one element, the second none; then it is assigned to. -/
example : (runHist vstep (SHeap.start Nat) [.construct (oddSource 0), .append 0 (oddSource 5), .insert 0 1 (oddSource 5), .base (.base (.pushBack 0 9 false)), .assign 0 0 (oddSource 4)]).map
    (fun q => (q.1.h.forward 0, q.1.sizeOf 0, q.2)) = some (some [1, 5, 1, 9], 4, [false, true, true, false, true]) := by rfl

/-- The history of one of these operations after the other meets the hypotheses, wherever exceptions come. -/
example : VLegal (SAbs.start Nat) [.base (.base .new), .append 0 (oddSource 5), .assign 0 0 (oddSource 3)] := by
  refine ⟨trivial, fun _ S1 h1 => ?_⟩
  cases h1
  refine ⟨⟨⟨[], rfl⟩, by simp [oddSource, twoOdd, PipeC.Fits]⟩, fun _ S2 h2 => ?_⟩
  cases h2
  exact ⟨⟨⟨_, rfl⟩, by simp [oddSource, twoOdd, PipeC.Fits]⟩, fun _ _ _ => trivial⟩

end Verif.Lists
