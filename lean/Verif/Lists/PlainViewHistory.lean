import Verif.Lists.ViewHistory
import Verif.Lists.ForwardAssignThrowing

/-!
# Histories of lists that do not count their size and are also filled from views whose functions throw

As in `Lists/ViewHistory.lean`, for `bidirectional_linked_list` (the operations of C31, `append` and `assign`) and for `singly_linked_list` (the operations of C32,
`append_after` and `assign`). Construction from a view, and `insert` of one, lose nodes if they throw (C121_construct_violated), so they are not among the operations.
-/

namespace Verif.Lists

open Verif Verif.Views Verif.Views.Calling Verif.Containers

variable {V : Type}

/-! ## Model -/

/-- What a user can do with doubly linked lists: the operations of C31 (source/containers/bidirectional_linked_list.cpp), and two that take a view. -/
inductive LVOp (V : Type) : Type 1
  | base (op : LOp V)
  | append (l : Nat) (v : Source V)
  | assign (l : Nat) (left : V) (v : Source V)

/-- One operation of the library (append.cpp 74-82, assign.cpp 81-91 in source/containers). -/
def lvstep (h : LHeap V) : LVOp V → Out (LHeap V)
  | .base op => lstep h op
  | .append l v => h.appendViewC l v.bound v.view v.conv v.noMem v.state
  | .assign l left v => h.assignViewC l left v.bound v.view v.conv v.noMem v.state

/-- What a user can do with singly linked lists: the operations of C32 (source/containers/singly_linked_list.cpp), and two that take a view. -/
inductive FVOp (V : Type) : Type 1
  | base (op : FOp V)
  | appendAfter (l pos : Nat) (v : Source V)
  | assign (l : Nat) (left : V) (v : Source V)

/-- One operation of the library (append_after.cpp 23-33, assign.cpp 74-77 in source/containers). -/
def fvstep (h : FHeap V) : FVOp V → Out (FHeap V)
  | .base op => fstep h op
  | .appendAfter _ pos v => h.appendAfterViewC pos v.bound v.view v.conv v.noMem v.state
  | .assign l left v => h.assignViewC l left v.bound v.view v.conv v.noMem v.state

/-! ## Specification -/

/-- What an operation on doubly linked lists may do, and whether it throws. How many numbers of nodes an `assign` uses up is left open. -/
inductive LVSpec (A : Abs V) : LVOp V → Bool → Abs V → Prop
  | base (op : LOp V) : LVSpec A (.base op) (A.spec op).2 (A.spec op).1
  | append (l : Nat) (v : Source V) (n : Nat) (thrown : Bool) (h : v.TookN n thrown) :
    LVSpec A (.append l v) thrown ((A.set l (A.at' l ++ number A.next (v.values.take n))).use n)
  | assigned (l : Nat) (left : V) (v : Source V) (used : Nat) (h : ∀ x ∈ v.view.denote, (v.conv x).throws = false) :
    LVSpec A (.assign l left v) false
      ((A.set l (overwrite (A.at' l) v.values ++ number (A.next + 1) (v.values.drop (A.at' l).length))).use used)
  | notAssigned (l : Nat) (left : V) (v : Source V) (used : Nat) (zs : List (Nat × V))
    (h : Partly v.view.Quiet v.noMem left (A.next + 1) (A.at' l) (v.view.denote.map v.conv) zs) : LVSpec A (.assign l left v) true ((A.set l zs).use used)

/-- What an operation on singly linked lists may do, and whether it throws. -/
inductive FVSpec (A : Abs V) : FVOp V → Bool → Abs V → Prop
  | base (op : FOp V) : FVSpec A (.base op) (A.fspec op).2 (A.fspec op).1
  | appendAfter (l pos : Nat) (v : Source V) (n : Nat) (thrown : Bool) (h : v.TookN n thrown) :
    FVSpec A (.appendAfter l pos v) thrown ((A.set l (upTo l pos (A.at' l) ++ number A.next (v.values.take n) ++ behind l pos (A.at' l))).use n)
  | assigned (l : Nat) (left : V) (v : Source V) (used : Nat) (h : ∀ x ∈ v.view.denote, (v.conv x).throws = false) :
    FVSpec A (.assign l left v) false
      ((A.set l (overwrite (A.at' l) v.values ++ number A.next (v.values.drop (A.at' l).length))).use used)
  | notAssigned (l : Nat) (left : V) (v : Source V) (used : Nat) (zs : List (Nat × V))
    (h : Partly v.view.Quiet v.noMem left A.next (A.at' l) (v.view.denote.map v.conv) zs) : FVSpec A (.assign l left v) true ((A.set l zs).use used)

/-- What the caller has to provide for doubly linked lists. -/
def LVPre (A : Abs V) : LVOp V → Prop
  | .base op => A.pre op
  | .append l v => A.Has l ∧ v.view.Fits v.bound
  | .assign l _ v => A.Has l ∧ v.view.Fits v.bound

/-- What the caller has to provide for singly linked lists. -/
def FVPre (A : Abs V) : FVOp V → Prop
  | .base op => A.fpre op
  | .appendAfter l pos v => A.Has l ∧ ValidPos l (A.at' l) pos ∧ v.view.Fits v.bound
  | .assign l _ v => A.Has l ∧ v.view.Fits v.bound

/-- The caller provides it at each operation, wherever the exceptions before came. -/
def LegalHist {O : Type 1} {S : Type} (spec : S → O → Bool → S → Prop) (pre : S → O → Prop) (A : S) : List O → Prop
  | [] => True
  | op :: ops => pre A op ∧ ∀ thrown A', spec A op thrown A' → LegalHist spec pre A' ops

/-- What a history may do, and which operations throw. -/
inductive SpecRun {O : Type 1} {S : Type} (spec : S → O → Bool → S → Prop) : S → List O → List Bool → S → Prop
  | nil (A : S) : SpecRun spec A [] [] A
  | cons {A A' A'' : S} {op : O} {ops : List O} {thrown : Bool} {bs : List Bool} (h : spec A op thrown A') (t : SpecRun spec A' ops bs A'') :
    SpecRun spec A (op :: ops) (thrown :: bs) A''

/-! ## Proofs -/

/-- Steps that refine a relation give histories that do. -/
theorem runHist_allows {O : Type 1} {S H : Type} {spec : S → O → Bool → S → Prop} {pre : S → O → Prop} {step : H → O → Out H} {R : H → S → Prop}
    (hs : ∀ h A op, R h A → pre A op → ∃ h' thrown A', step h op = Out.of thrown h' ∧ spec A op thrown A' ∧ R h' A') (ops : List O) :
    ∀ h A, R h A → LegalHist spec pre A ops → ∃ h' bs A', runHist step h ops = some (h', bs) ∧ SpecRun spec A ops bs A' ∧ R h' A' := by
  induction ops with
  | nil => exact fun h A r _ => ⟨h, [], A, rfl, .nil A, r⟩
  | cons op ops ih =>
    intro h A r hp
    obtain ⟨h1, thrown, A1, e, s1, r1⟩ := hs h A op r hp.1
    obtain ⟨h2, bs, A2, e2, run, r2⟩ := ih h1 A1 r1 (hp.2 thrown A1 s1)
    refine ⟨h2, thrown :: bs, A2, ?_, .cons s1 run, r2⟩
    rw [runHist, e]
    cases thrown <;> simp [e2]

theorem lvstep_refines (h : LHeap V) (A : Abs V) (op : LVOp V) (r : Rel h A) (hp : LVPre A op) :
    ∃ h' thrown A', lvstep h op = Out.of thrown h' ∧ LVSpec A op thrown A' ∧ Rel h' A' := by
  cases op with
  | base op =>
    obtain ⟨h', e, r'⟩ := lstep_refines h A op r hp
    exact ⟨h', _, _, e, .base op, r'⟩
  | append l v =>
    obtain ⟨⟨xs, hl⟩, hf⟩ := hp
    obtain ⟨n, thrown, h', e, tk, r'⟩ := C121_append r hl v.view hf v.conv v.noMem v.state
    refine ⟨h', thrown, _, e, .append l v n thrown tk, ?_⟩
    rw [Abs.at_of hl, Source.values, ← List.map_take]
    exact r'
  | assign l left v =>
    obtain ⟨⟨xs, hl⟩, hf⟩ := hp
    obtain ⟨thrown, h', zs, used, e, r', h0, h1⟩ := C121_assign r hl left v.view hf v.conv v.noMem v.state
    cases thrown with
    | true => exact ⟨h', true, _, e, .notAssigned l left v used zs (by rw [Abs.at_of hl]; exact h1 rfl), r'⟩
    | false =>
      refine ⟨h', false, _, e, .assigned l left v used (h0 rfl).2, ?_⟩
      rw [Abs.at_of hl, Source.values, ← (h0 rfl).1]
      exact r'

theorem fvstep_refines (h : FHeap V) (A : Abs V) (op : FVOp V) (r : FRel h A) (hp : FVPre A op) :
    ∃ h' thrown A', fvstep h op = Out.of thrown h' ∧ FVSpec A op thrown A' ∧ FRel h' A' := by
  cases op with
  | base op =>
    obtain ⟨h', e, r'⟩ := fstep_refines h A op r hp
    exact ⟨h', _, _, e, .base op, r'⟩
  | appendAfter l pos v =>
    obtain ⟨⟨xs, hl⟩, hv, hf⟩ := hp
    rw [Abs.at_of hl] at hv
    obtain ⟨n, thrown, h', e, tk, r'⟩ := C121_append_after r hl hv v.view hf v.conv v.noMem v.state
    refine ⟨h', thrown, _, e, .appendAfter l pos v n thrown tk, ?_⟩
    rw [Abs.at_of hl, Source.values, ← List.map_take]
    exact r'
  | assign l left v =>
    obtain ⟨⟨xs, hl⟩, hf⟩ := hp
    obtain ⟨thrown, h', zs, used, e, r', h0, h1⟩ := C121_forward_assign r hl left v.view hf v.conv v.noMem v.state
    cases thrown with
    | true => exact ⟨h', true, _, e, .notAssigned l left v used zs (by rw [Abs.at_of hl]; exact h1 rfl), r'⟩
    | false =>
      refine ⟨h', false, _, e, .assigned l left v used (h0 rfl).2, ?_⟩
      rw [Abs.at_of hl, Source.values, ← (h0 rfl).1]
      exact r'

/-- **C121**, histories of doubly linked lists: any sequence of the operations of C31 and of `append` and `assign` of views whose functions throw runs without undefined
behaviour and does what the specification allows; every list is linked in both directions and holds the sequence it says, and no node is lost or shared. Missing:
construction from such a view and `insert` of one, which lose nodes. -/
theorem C121_plain_history_partial (ops : List (LVOp V)) {h : LHeap V} {A : Abs V} (r : Rel h A) (hp : LegalHist LVSpec LVPre A ops) :
    ∃ h' bs A', runHist lvstep h ops = some (h', bs) ∧ SpecRun LVSpec A ops bs A' ∧ LShows h' A' :=
  (runHist_allows lvstep_refines ops h A r hp).imp fun _ => fun ⟨bs, A', e, s, r'⟩ => ⟨bs, A', e, s, r'.shows⟩

/-- **C121**, histories of singly linked lists: any sequence of the operations of C32 and of `append_after` and `assign` of views whose functions throw. Missing:
construction from such a view, which loses nodes. -/
theorem C121_forward_history_partial (ops : List (FVOp V)) {h : FHeap V} {A : Abs V} (r : FRel h A) (hp : LegalHist FVSpec FVPre A ops) :
    ∃ h' bs A', runHist fvstep h ops = some (h', bs) ∧ SpecRun FVSpec A ops bs A' ∧ FShows h' A' :=
  (runHist_allows fvstep_refines ops h A r hp).imp fun _ => fun ⟨bs, A', e, s, r'⟩ => ⟨bs, A', e, s, r'.shows⟩

/-- **C121**, histories of doubly linked lists from the beginning, when there is no list; what is missing is as above. -/
theorem C121_plain_history_from_start_partial (ops : List (LVOp V)) (hp : LegalHist LVSpec LVPre (Abs.start V) ops) :
    ∃ h' bs A', runHist lvstep (LHeap.start V) ops = some (h', bs) ∧ SpecRun LVSpec (Abs.start V) ops bs A' ∧ LShows h' A' :=
  C121_plain_history_partial ops (rel_start V) hp

/-- **C121**, histories of singly linked lists from the beginning, when there is no list; what is missing is as above. -/
theorem C121_forward_history_from_start_partial (ops : List (FVOp V)) (hp : LegalHist FVSpec FVPre (Abs.start V) ops) :
    ∃ h' bs A', runHist fvstep (FHeap.start V) ops = some (h', bs) ∧ SpecRun FVSpec (Abs.start V) ops bs A' ∧ FShows h' A' :=
  C121_forward_history_partial ops (frel_start V) hp

/-! ## Cases -/

/-- Exceptions in the middle of both operations meet the hypotheses. -/
example : LegalHist LVSpec LVPre (Abs.start Nat) [.base .new, .append 0 (oddSource 5), .assign 0 0 (oddSource 3)] := by
  refine ⟨trivial, fun _ S1 h1 => ?_⟩
  cases h1
  refine ⟨⟨⟨[], rfl⟩, by simp [oddSource, twoOdd, PipeC.Fits]⟩, fun _ S2 h2 => ?_⟩
  cases h2
  exact ⟨⟨⟨_, rfl⟩, by simp [oddSource, twoOdd, PipeC.Fits]⟩, fun _ _ _ => trivial⟩

example : LegalHist FVSpec FVPre (Abs.start Nat) [.base .new, .appendAfter 0 0 (oddSource 5), .assign 0 0 (oddSource 3)] := by
  refine ⟨trivial, fun _ S1 h1 => ?_⟩
  cases h1
  refine ⟨⟨⟨[], rfl⟩, .inl rfl, by simp [oddSource, twoOdd, PipeC.Fits]⟩, fun _ S2 h2 => ?_⟩
  cases h2
  exact ⟨⟨⟨_, rfl⟩, by simp [oddSource, twoOdd, PipeC.Fits]⟩, fun _ _ _ => trivial⟩

example : (runHist lvstep (LHeap.start Nat) [.base .new, .append 0 (oddSource 0), .append 0 (oddSource 5), .assign 0 0 (oddSource 4)]).map
    (fun q => (q.1.forward 0, q.2)) = some (some [1, 5, 1], [false, false, true, true]) := by rfl

end Verif.Lists
