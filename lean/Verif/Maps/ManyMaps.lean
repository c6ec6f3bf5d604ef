import Verif.Maps.Programs
import Verif.Containers.ManyVectors

/-!
# Programs with several maps and iterators of them (C111)

A program has any number of maps on vectors (`flat_map`, `flat_multimap`, `linear_map`), and variables with iterators. Besides what it does with one map (C106), it
constructs maps from nothing, from ranges and from other maps, assigns, compares and destroys maps, inserts elements of one map into another, and reads
and writes through iterators without saying into which map they point.
-/

namespace Verif.Maps.Several

open Verif Verif.Algo Verif.Algo.Mem Verif.Maps
open Verif.Containers (Impl Lawful Heap Hdr GOp Item SV Fresh Frame CS AS Tracks Done Addr VA VBin VCtor VFrom MCS MAS MTracks MStep Ans vec vsys vcfg items outcome leftBehind leftBehind_seg
  WOp Sys vbinS vcopyS vunS vselfS vfromS vctorS nulAfter)
open Verif.Containers.Lawful

variable {κ μ O R : Type}

/-! ## Model -/

/-- Assignment of a map: that of its container (`flat_map.cpp` 285-286 and `linear_map.cpp` 200-201 are the only data members; the functions are implicit). -/
inductive Assign (κ μ : Type) where
  | move
  /-- `thr k`: copying element `k` throws; `left` is what an element is then; `al` says which allocations fail -/
  | copy (thr : Nat → Bool) (left : κ × μ) (al : Nat → Bool)
  | copyTrivial (al : Nat → Bool)

/-- The assignment of the container. -/
def Assign.bin : Assign κ μ → VBin (κ × μ)
  | .move => .move
  | .copy thr left al => .copy thr left al
  | .copyTrivial al => .copyTrivial al

/-- What a program can do. `i`, `j` name maps; `x`, `y`, `z` are variables with iterators. -/
inductive Step (κ μ : Type) where
  /-- something with map `i` that does not change its keys (C106) -/
  | look (i : Nat) (l : MLook κ μ)
  /-- a function of map `i` (C106), what it returns goes to `y` -/
  | call (i : Nat) (m : MCall κ μ) (y : Nat)
  /-- `m_i.insert(subrange(y, z))` with iterators of another map; `thr k` says that copying the `k`-th element throws -/
  | insertFrom (i y z : Nat) (thr : Nat → Bool) (left : κ × μ) (al : Nat → Bool)
  /-- `*x` -/
  | peek (x : Nat)
  /-- `x->mapped = v` -/
  | poke (x : Nat) (v : μ)
  /-- `m_i == m_j` -/
  | equal (i j : Nat)
  /-- default construction -/
  | make (i : Nat) (fails : Bool)
  /-- construction from a range whose size is known; `fails`: the allocation fails -/
  | makeRange (i : Nat) (init : List (Item (κ × μ))) (left : κ × μ) (fails : Bool)
  /-- copy or move construction of `i` from `j` -/
  | makeFrom (i j : Nat) (f : VFrom)
  /-- `m_i = m_j` or `m_i = std::move(m_j)` -/
  | assign (i j : Nat) (b : Assign κ μ)
  | drop (i : Nat)

/-- What a program learns from a step: what it saw, how a call ended, if the step threw or if the maps are equal. -/
inductive Reply (κ μ : Type) where
  | saw (a : MAns κ μ)
  | did (r : MRes)
  | flag (b : Bool)
  deriving DecidableEq

/-- A program. -/
inductive Prog (κ μ R : Type) where
  | ret (r : R)
  | step (s : Step κ μ) (k : Reply κ μ → Prog κ μ R)

/-- What the constructors from a range do with the container (`flat_map.cpp` 132-141, with `unique_ska_sort`, `algorithms/sort/ska_sort.cpp` 41-51; `linear_map.cpp` 62-67). -/
def constructOn (I : Impl (κ × μ) O) (mn : Nat) (K : Kind κ μ) (left : κ × μ) (h : Heap (κ × μ)) (o : O) : Out (Heap (κ × μ) × O) :=
  match K with
  | .flat C =>
    match sortOn I C h o 0 with
    | .ok s =>
      match unique C.mv (fun x y => C.eq x.1 y.1) (fun a => (I.slots s.1 s.2 a).map .val) 0 (I.size s.2) with
      | none => .ub
      | some (m, position) => I.step mn (I.put s.1 s.2 (leftBehind left m)).1 (I.put s.1 s.2 (leftBehind left m)).2 (.eraseToEnd position)
    | .exn s => .exn s
    | .ub => .ub
  | .multi C => sortOn I C h o 0
  | .linear E => removeDuplicatesOn I mn E h o 0

/-- A function of one map, in a program with several. -/
def callOn (mn mx : Nat) (K : Nat → Kind κ μ) (c : MCS (κ × μ)) (i : Nat) (m : MCall κ μ) (y : Nat) : Option (Reply κ μ × MCS (κ × μ)) :=
  match c.obj i with
  | none => none
  | some o =>
    match land ⟨c.h, o, c.its⟩ y (m.run (vec (κ × μ) mn mx) mn (K i) ⟨c.h, o, c.its⟩) with
    | none => none
    | some (x, c') => some (.did x, ⟨c'.h, upd c.obj i (some c'.o), c'.its⟩)

/-- The elements of map `i`, as iteration reads them. -/
def elemsOn (mn mx : Nat) (c : MCS (κ × μ)) (i : Nat) : Option (List (κ × μ)) :=
  match c.obj i with
  | none => none
  | some o => Containers.readFrom ((vec (κ × μ) mn mx).mem c.h o).1 ((vec (κ × μ) mn mx).mem c.h o).2 0 ((vec (κ × μ) mn mx).size o)

/-- What a step with whole vectors tells the program. -/
def Reply.ofAns : Ans (κ × μ) → Reply κ μ
  | .flag b => .flag b
  | _ => .flag false

/-- One step: `flat_map.cpp` 104-346, `linear_map.cpp` 42-202, `compare_container.cpp` 37-40. `K i` says what kind of map `i` is. Sorting and removing duplicates in a constructor
do not throw. -/
def Step.run [DecidableEq κ] [DecidableEq μ] (mn mx : Nat) (K : Nat → Kind κ μ) (c : MCS (κ × μ)) : Step κ μ → Option (Reply κ μ × MCS (κ × μ))
  | .look i l =>
    match c.obj i with
    | none => none
    | some o =>
      match l.run (vec (κ × μ) mn mx) (K i) ⟨c.h, o, c.its⟩ with
      | none => none
      | some (x, c') => some (.saw x, ⟨c'.h, upd c.obj i (some c'.o), c'.its⟩)
  | .call i m y => callOn mn mx K c i m y
  | .insertFrom i y z thr left al =>
    match c.its y, c.its z with
    | some p, some q =>
      match c.h.loadRange p q with
      | none => none
      | some vs => callOn mn mx K c i (.insertRange (items vs thr) left al) y
    | _, _ => none
  | .peek x =>
    match c.its x with
    | none => none
    | some p => (c.h.load p).map fun e => (.saw (.entry e), c)
  | .poke x v =>
    match c.its x with
    | none => none
    | some p =>
      match c.h.load p with
      | none => none
      | some e => (c.h.store p (e.1, v)).map fun h => (.saw .unit, { c with h := h })
  | .equal i j =>
    match elemsOn mn mx c i, elemsOn mn mx c j with
    | some xs, some ys =>
      match mapEqual xs ys with
      | some (.ok b) => some (.flag b, c)
      | _ => none
    | _, _ => none
  | .make i fails => (outcome c.its ((vsys (κ × μ) mn mx).step (c.h, c.obj) (.make i (.dflt fails)))).map fun r => (.ofAns r.1, r.2)
  | .makeRange i init left fails =>
    match (vsys (κ × μ) mn mx).step (c.h, c.obj) (.make i (.sized init fails)) with
    | .ub => none
    | .exn w => some (.flag true, ⟨w.1, w.2, c.its⟩)
    | .ok w =>
      match w.2 i with
      | none => none
      | some o =>
        match constructOn (vec (κ × μ) mn mx) mn (K i) left w.1 o with
        | .ok s => some (.flag false, ⟨s.1, upd w.2 i (some s.2), c.its⟩)
        | _ => none
  | .makeFrom i j f => (outcome c.its ((vsys (κ × μ) mn mx).step (c.h, c.obj) (.makeFrom i j f))).map fun r => (.ofAns r.1, r.2)
  | .assign i j b => (outcome c.its ((vsys (κ × μ) mn mx).step (c.h, c.obj) (.bin i j b.bin))).map fun r => (.ofAns r.1, r.2)
  | .drop i => (outcome c.its ((vsys (κ × μ) mn mx).step (c.h, c.obj) (.drop i))).map fun r => (.ofAns r.1, r.2)

/-- Running a program; nothing if it is undefined. -/
def Prog.run [DecidableEq κ] [DecidableEq μ] (mn mx : Nat) (K : Nat → Kind κ μ) : Prog κ μ R → MCS (κ × μ) → Option (R × MCS (κ × μ))
  | .ret r, c => some (r, c)
  | .step s k, c =>
    match s.run mn mx K c with
    | some (x, c') => (k x).run mn mx K c'
    | none => none

/-! ## Specification

For every map the elements in their order and a capacity, for every variable a map and an index in it, or that it must not be used. -/

/-- A function of map `i`. -/
def callMeans (mn mx : Nat) (K : Nat → Kind κ μ) (a : MAS (κ × μ)) (i : Nat) (m : MCall κ μ) (y : Nat) : Option (Reply κ μ × MAS (κ × μ)) :=
  (a.of i).bind fun b => (m.mean (K i) (vcfg mn mx) y b).map fun r => (.did r.1, a.put i r.2)

/-- The meaning of a step. -/
def Step.mean [DecidableEq κ] [DecidableEq μ] (mn mx : Nat) (K : Nat → Kind κ μ) (a : MAS (κ × μ)) : Step κ μ → Option (Reply κ μ × MAS (κ × μ))
  | .look i l => (a.of i).bind fun b => (l.mean (K i) b).map fun r => (.saw r.1, a.put i r.2)
  | .call i m y => callMeans mn mx K a i m y
  | .insertFrom i y z thr left al => (a.range i y z).bind fun vs => callMeans mn mx K a i (.insertRange (items vs thr) left al) y
  | .peek x => (a.pos x).bind fun p => (a.elems p.1)[p.2]?.map fun e => (.saw (.entry e), a)
  | .poke x v => (a.pos x).bind fun p => (a.of p.1).map fun b => (.saw .unit, a.put p.1 { b with s := (setAt b.s.1 p.2 v, b.s.2) })
  | .equal i j => some (.flag (decide (a.elems i = a.elems j)), a)
  | .make i fails => (a.whole mn mx (.make i (.dflt fails)) some).map fun r => (.ofAns r.1, r.2)
  | .makeRange i init _ fails =>
    (a.whole mn mx (.make i (.sized init fails)) some).bind fun r =>
      if r.1 = .flag true then some (.flag true, r.2)
      else (r.2.of i).map fun b => (.flag false, r.2.put i { b with s := ((K i).insertAll [] (init.map (·.val)), b.s.2) })
  | .makeFrom i j f => (a.whole mn mx (.makeFrom i j f) (f.goes i j)).map fun r => (.ofAns r.1, r.2)
  | .assign i j b => (a.whole mn mx (.bin i j b.bin) (b.bin.goes i j)).map fun r => (.ofAns r.1, r.2)
  | .drop i => (a.whole mn mx (.drop i) fun k => if k = i then none else some k).map fun r => (.ofAns r.1, r.2)

/-- The meaning of a program. -/
def Prog.mean [DecidableEq κ] [DecidableEq μ] (mn mx : Nat) (K : Nat → Kind κ μ) : Prog κ μ R → MAS (κ × μ) → Option (R × MAS (κ × μ))
  | .ret r, a => some (r, a)
  | .step s k, a => (s.mean mn mx K a).bind fun x => (k x.1).mean mn mx K x.2

/-- Copy assignment: no element of the map that is assigned to throws when it is assigned to (see `C111_copy_assignment_violated`). New elements and allocations may throw. -/
def Assign.Safe (n : Nat) : Assign κ μ → Prop
  | .copy thr _ _ => ∀ k, k < n → thr k = false
  | _ => True

/-- What the program has to ensure. Maps that are assigned to each other have the same type. A map that has been moved from is only assigned to, copied or destroyed. -/
def Step.Pre (mn mx : Nat) (K : Nat → Kind κ μ) (a : MAS (κ × μ)) : Step κ μ → Prop
  | .look i l => ∃ b, a.of i = some b ∧ l.Pre (K i) b
  | .call i m _ => ∃ b, a.of i = some b ∧ m.Pre (K i) (vcfg mn mx) b
  | .insertFrom i y z thr left al => ∃ b vs, a.of i = some b ∧ a.range i y z = some vs ∧ (MCall.insertRange (items vs thr) left al).Pre (K i) (vcfg mn mx) b
  | .peek x | .poke x _ => ∃ p, a.pos x = some p ∧ p.2 < (a.elems p.1).length
  | .equal i j => (a.of i).isSome ∧ (a.of j).isSome
  | .make i fails => (vsys (κ × μ) mn mx).pre a.obj (.make i (.dflt fails))
  | .makeRange i init _ fails => (vsys (κ × μ) mn mx).pre a.obj (.make i (.sized init fails)) ∧
      ∀ C, K i = .flat C ∨ K i = .multi C → C.Sortable (init.map (·.val)) ∧ (init.map (·.val)).Pairwise fun x y => ¬ C.Same x.1 y.1
  | .makeFrom i j f => (vsys (κ × μ) mn mx).pre a.obj (.makeFrom i j f) ∧ K i = K j
  | .assign i j b => (vsys (κ × μ) mn mx).pre a.obj (.bin i j b.bin) ∧ K i = K j ∧ b.Safe (a.elems i).length
  | .drop i => (vsys (κ × μ) mn mx).pre a.obj (.drop i)

/-- In the run that it has. -/
def Prog.Pre [DecidableEq κ] [DecidableEq μ] (mn mx : Nat) (K : Nat → Kind κ μ) : Prog κ μ R → MAS (κ × μ) → Prop
  | .ret _, _ => True
  | .step s k, a => s.Pre mn mx K a ∧ ∀ x, s.mean mn mx K a = some x → (k x.1).Pre mn mx K x.2

/-- What is always so: in a `flat_map` keys increase, in a multimap they do not decrease, in a linear map none is there twice. -/
def Inv (K : Nat → Kind κ μ) (a : MAS (κ × μ)) : Prop := ∀ i xs cap nul, a.obj i = some (.live xs cap nul) → (K i).Inv xs

/-! ## Proofs -/

variable {I : Impl (κ × μ) O} {mn mx : Nat} {hmm : mn ≤ mx} {mkA : Bool} {L : Lawful I mn mkA} {K : Nat → Kind κ μ}

theorem constructOn_spec {K : Kind κ μ} (hK : K.Ok) (left : κ × μ) {h : Heap (κ × μ)} {o : O} {xs : List (κ × μ)} {cap : Nat} (r : L.Rep h o xs cap) (hf : Fresh h)
    (hn : ∀ C, K = .flat C ∨ K = .multi C → C.Sortable xs ∧ xs.Pairwise fun x y => ¬ C.Same x.1 y.1) :
    ∃ h' o', constructOn I mn K left h o = .ok (h', o') ∧ L.Rep h' o' (K.insertAll [] xs) cap ∧ Frame (I.own o) h (I.own o') h' ∧ I.ptr o' = I.ptr o := by
  cases K with
  | flat C =>
    obtain ⟨hC, hk⟩ := hK
    obtain ⟨hs, hd⟩ := hn C (.inl rfl)
    obtain ⟨h1, o1, ys, e1, r1, f1, -, so, p1⟩ := sortOn_spec (L := L) (xs := []) hC r hs
    rw [List.nil_append] at r1
    have heq : (fun x y : κ × μ => C.eq x.1 y.1) = equiv C.elt := by
      funext x y; rw [hC.eq]; rfl
    obtain ⟨m', e2, s2, -, live⟩ := C44_unique (mk := C.mv) (eq := equiv C.elt) (objs_seg ys) (fun a b c _ hab => by
      obtain ⟨h1, h2⟩ := equiv_iff.1 hab
      have key : ∀ {a b : κ × μ}, C.elt a b = false → C.elt b a = false → equiv C.elt a c = true → equiv C.elt b c = true := by
        intro a b h1 h2 hac
        obtain ⟨h3, h4⟩ := equiv_iff.1 hac
        exact equiv_iff.2 ⟨hC.elt_order.negTrans h3 h2, hC.elt_order.negTrans h1 h4⟩
      rw [Bool.eq_iff_iff]
      exact ⟨key h1 h2, key h2 h1⟩)
    simp only [Nat.zero_add] at e2
    have hu : IsUniqued C.elt ([] ++ ys) (firstOfRuns (equiv C.elt) ys) := by
      have : firstOfRuns (equiv C.elt) ys = firstOfRuns (fun a b => !C.elt a b) ys := firstOfRuns_congr <| so.sorted.imp fun {a b} hab => by
        rw [equiv, hab]; simp
      rw [List.nil_append, this, ← dedup_runs (sorted_runs hC.elt_order so.sorted)]
      exact dedup_uniqued hC.elt_order so.sorted
    have hz := merged_insertEach hC List.Pairwise.nil hd hk so.perm hu
    rw [hz] at e2 s2
    obtain ⟨ws, hw, hwl⟩ := leftBehind_seg (left := left) s2 live
    obtain ⟨r2, f2⟩ := Containers.Rep.put (ys := (Kind.flat C).insertEach [] xs ++ ws) r1 hwl
    have p2 := (L.put_law (fun k => ((Kind.flat C).insertEach [] xs ++ ws)[k]?) r1.1.1).2.2.2.1
    obtain ⟨h3, o3, e3, r3, f3, pr⟩ := good_step (L := L) r2 (f2.fresh (f1.fresh hf)) (.eraseToEnd ((Kind.flat C).insertEach [] xs).length) (by
      show _ ≤ ((Kind.flat C).insertEach [] xs ++ ws).length
      rw [List.length_append]; omega)
    refine ⟨h3, o3, ?_, ?_, (f1.trans f2).trans f3, ?_⟩
    · simp only [List.length_nil] at e1
      simp only [constructOn, e1, size_of r1, slots_memOf r1, heq]
      have : (fun a => (memOf ys a).map Obj.val) = objs ys := rfl
      rw [this, e2]
      simp only [hw]
      exact e3
    · simpa [GOp.spec, Kind.insertAll] using r3
    · rw [← p1, ← p2]
      refine pr.1 ?_
      rw [r2.mem]; rfl
  | multi C =>
    obtain ⟨hC, -⟩ := hK
    obtain ⟨hs, hd⟩ := hn C (.inr rfl)
    obtain ⟨h1, o1, ys, e1, r1, f1, -, so, p1⟩ := sortOn_spec (L := L) (xs := []) hC r hs
    rw [List.nil_append] at r1
    have hz : ys = (Kind.multi C).insertEach [] xs := by
      refine IsStableSort.unique hC.elt_order (stable_of_perm (xs := []) hC.elt_order so.perm (hd.imp fun {x y} hn => ?_) ⟨so.sorted, List.Perm.refl _, fun x => rfl⟩)
        (insertEach_stable hC.order _ List.Pairwise.nil)
      by_contra hc
      exact hn (equiv_iff (lt := C.elt).1 (by simpa using hc))
    exact ⟨h1, o1, e1, by rw [hz] at r1; exact r1, f1, p1⟩
  | linear E =>
    exact removeDuplicatesOn_spec (L := L) (mn := mn) (E := E) (xs := []) r hf

theorem Inv.put {a : MAS (κ × μ)} (hi : Inv K a) {i : Nat} {b : AS (κ × μ)} (hb : (K i).Inv b.s.1) : Inv K (a.put i b) := by
  intro j xs cap nul hj
  simp only [MAS.put] at hj
  by_cases hji : j = i
  · subst hji
    rw [upd_same, Option.map_eq_some_iff] at hj
    obtain ⟨A, -, hA⟩ := hj
    cases A with
    | live ys cap' nul' => cases hA; exact hb
    | moved => cases hA
  · rw [upd_other _ _ hji] at hj
    exact hi j xs cap nul hj

theorem Inv.of {a : MAS (κ × μ)} (hi : Inv K a) {i : Nat} {b : AS (κ × μ)} (hb : a.of i = some b) : (K i).Inv b.s.1 := by
  obtain ⟨xs, cap, nul, h1, rfl⟩ := MAS.of_some hb
  exact hi i xs cap nul h1

theorem MTracks.call (hK : ∀ i, (K i).Ok) {c : MCS (κ × μ)} {a : MAS (κ × μ)} (t : MTracks mn mx hmm c a) (hi : Inv K a) {i : Nat} {b : AS (κ × μ)} (hb : a.of i = some b)
    {m : MCall κ μ} (y : Nat) (hp : m.Pre (K i) (vcfg mn mx) b) :
    ∃ x a' c', callMeans mn mx K a i m y = some (x, a') ∧ callOn mn mx K c i m y = some (x, c') ∧ MTracks mn mx hmm c' a' ∧ Inv K a' := by
  obtain ⟨o, xs, cap, nul, ho, ha, hs, v, t1⟩ := t.at_ hb
  obtain ⟨x, b', c', h1, h2, h3, h4, h5, h6⟩ := MCall.good (L := Containers.Vec.lawful (V := κ × μ) mn mx hmm) (mn := mn) (hK i) t1 (hi.of hb) m hp y
  refine ⟨.did x, a.put i b', ⟨c'.h, upd c.obj i (some c'.o), c'.its⟩, ?_, ?_, t.put ho ha h3 h5 h6.ptr h6.vars, hi.put h4⟩
  · have h1' : m.mean (K i) (vcfg mn mx) y b = some (x, b') := h1
    simp only [callMeans, hb, Option.bind_some, h1', Option.map_some]
  · simp only [callOn, ho, h2]

/-- The elements as iteration reads them. -/
theorem MTracks.elemsOn {c : MCS (κ × μ)} {a : MAS (κ × μ)} (t : MTracks mn mx hmm c a) {i : Nat} {b : AS (κ × μ)} (hb : a.of i = some b) :
    elemsOn mn mx c i = some (a.elems i) := by
  obtain ⟨o, xs, cap, nul, ho, ha, hs, v, t1⟩ := t.at_ hb
  have := Containers.Rep.iterate t1.rep
  simp only [Several.elemsOn, ho]
  rw [hs] at this
  simp only [MAS.elems, ha]
  exact this

theorem items_val (xs : List (κ × μ)) (thr : Nat → Bool) : (items xs thr).map (·.val) = xs := by
  apply List.ext_getElem <;> simp [items]

/-- What is left after an assignment of a map, if no element that is assigned to throws. -/
theorem assigned {A B : VA (κ × μ)} {b : Assign κ μ} (hs : b.Safe A.elems.length) {xs : List (κ × μ)} {cap : Nat} {nul : Bool}
    (h : (vbinS mn mx b.bin A B).1.1 = .live xs cap nul) : xs.Sublist B.elems ∨ A = .live xs cap nul := by
  cases b with
  | move => cases B <;> cases h; exact .inl (List.Sublist.refl _)
  | copyTrivial al =>
    simp only [Assign.bin, vbinS, vcopyS] at h
    split at h
    · split at h
      · exact .inr h
      · split at h
        · cases h; exact .inl (List.nil_sublist _)
        · cases h; exact .inl (List.Sublist.refl _)
    · cases A with
      | moved => cases h
      | live ws c n =>
        simp only [vunS, GOp.spec] at h
        split_ifs at h <;> cases h
        · exact .inl (List.nil_sublist _)
        · exact .inl (List.nil_sublist _)
        · left; rw [items_val]
  | copy thr left al =>
    simp only [Assign.bin, vbinS, vcopyS] at h
    split at h
    · split at h
      · exact .inr h
      · split at h
        · cases h; exact .inl (List.nil_sublist _)
        · cases h; exact .inl (List.Sublist.refl _)
    · cases A with
      | moved => cases h
      | live ws c n =>
        simp only [vunS, GOp.spec] at h
        split at h
        · rename_i j hj
          exfalso
          rw [List.findIdx?_eq_some_iff_getElem] at hj
          obtain ⟨hl, hj, -⟩ := hj
          rw [List.length_take] at hl
          rw [List.getElem_take] at hj
          simp only [items, List.getElem_mapIdx] at hj
          rw [hs j (by show j < ws.length; omega)] at hj
          cases hj
        · left
          simp only [Containers.specInsert] at h
          split_ifs at h <;> cases h <;> simp only [items_val, List.map_drop, List.take_length, List.drop_length, List.append_nil, List.take_append_drop, List.Sublist.refl, List.take_sublist]

theorem Inv.sub {xs ys : List (κ × μ)} {i : Nat} (h : ys.Sublist xs) (hi : (K i).Inv xs) : (K i).Inv ys := Maps.Inv.sub h hi

theorem Inv.elems {a : MAS (κ × μ)} (hi : Inv K a) {i : Nat} {A : VA (κ × μ)} (hA : a.obj i = some A) : (K i).Inv A.elems := by
  cases A with
  | live xs cap nul => exact hi i xs cap nul hA
  | moved => cases K i <;> exact List.Pairwise.nil

theorem Inv.empty {K : Kind κ μ} : K.Inv [] := by cases K <;> exact List.Pairwise.nil

theorem Inv.assign {a : MAS (κ × μ)} (hi : Inv K a) {i j : Nat} {b : Assign κ μ} (hK : K i = K j) (hs : b.Safe (a.elems i).length) (p : Nat → Option (Nat × Nat)) :
    Inv K ⟨((vsys (κ × μ) mn mx).spec a.obj (.bin i j b.bin)).1, p⟩ := by
  intro k xs cap nul hk
  simp only [Sys.spec] at hk
  cases hA : a.obj i with
  | none => rw [hA] at hk; exact hi k xs cap nul hk
  | some A =>
    cases hB : a.obj j with
    | none => rw [hA, hB] at hk; exact hi k xs cap nul hk
    | some B =>
      rw [hA, hB] at hk
      simp only at hk
      split at hk
      · rename_i hij
        subst hij
        simp only at hk
        by_cases hki : k = i
        · subst hki
          rw [upd_same, Option.some.injEq] at hk
          cases b with
          | move => cases hk
          | copy thr left al =>
            have hk : A = .live xs cap nul := hk
            exact hi k xs cap nul (hA.trans (congrArg some hk))
          | copyTrivial al =>
            have hk : A = .live xs cap nul := hk
            exact hi k xs cap nul (hA.trans (congrArg some hk))
        · rw [upd_other _ _ hki] at hk; exact hi k xs cap nul hk
      · rename_i hij
        simp only at hk
        by_cases hkj : k = j
        · subst hkj
          rw [upd_same, Option.some.injEq] at hk
          cases b with
          | move => cases hk
          | copy thr left al =>
            have hk : B = .live xs cap nul := hk
            exact hi k xs cap nul (hB.trans (congrArg some hk))
          | copyTrivial al =>
            have hk : B = .live xs cap nul := hk
            exact hi k xs cap nul (hB.trans (congrArg some hk))
        · rw [upd_other _ _ hkj] at hk
          by_cases hki : k = i
          · subst hki
            rw [upd_same, Option.some.injEq] at hk
            have hel : a.elems k = A.elems := by simp only [MAS.elems, hA]; rfl
            rw [hel] at hs
            rcases assigned hs hk with h | h
            · rw [hK]
              exact Maps.Inv.sub h (hi.elems hB)
            · exact hi k xs cap nul (hA.trans (congrArg some h))
          · rw [upd_other _ _ hki] at hk; exact hi k xs cap nul hk

theorem Inv.makeFrom {a : MAS (κ × μ)} (hi : Inv K a) {i j : Nat} {f : VFrom} (hK : K i = K j) (p : Nat → Option (Nat × Nat)) :
    Inv K ⟨((vsys (κ × μ) mn mx).spec a.obj (.makeFrom i j f)).1, p⟩ := by
  intro k xs cap nul hk
  simp only [Sys.spec] at hk
  cases hB : a.obj j with
  | none => rw [hB] at hk; exact hi k xs cap nul hk
  | some B =>
    rw [hB] at hk
    have old : ∀ {w : VA (κ × μ)}, w = .live xs cap nul → w = B → (K j).Inv xs := by
      rintro w rfl rfl; exact hi j xs cap nul hB
    cases f with
    | move =>
      have hk : upd (upd a.obj i (some B)) j (some .moved) k = some (.live xs cap nul) := hk
      by_cases hkj : k = j
      · subst hkj; rw [upd_same] at hk; cases hk
      · rw [upd_other _ _ hkj] at hk
        by_cases hki : k = i
        · subst hki
          rw [upd_same, Option.some.injEq] at hk
          rw [hK]; exact old hk rfl
        · rw [upd_other _ _ hki] at hk; exact hi k xs cap nul hk
    | copy thr fails =>
      have hk : (if (fails || (items B.elems thr).any fun x => x.throws) = true then upd a.obj j (some B) else
        upd (upd a.obj i (some (.live B.elems (max B.elems.length mn) false))) j (some B)) k = some (.live xs cap nul) := hk
      generalize (fails || (items B.elems thr).any fun x => x.throws) = q at hk
      cases q
      rotate_left
      · have hk : upd a.obj j (some B) k = some (.live xs cap nul) := hk
        by_cases hkj : k = j
        · subst hkj; rw [upd_same, Option.some.injEq] at hk; exact old hk rfl
        · rw [upd_other _ _ hkj] at hk; exact hi k xs cap nul hk
      · have hk : upd (upd a.obj i (some (.live B.elems (max B.elems.length mn) false))) j (some B) k = some (.live xs cap nul) := hk
        by_cases hkj : k = j
        · subst hkj; rw [upd_same, Option.some.injEq] at hk; exact old hk rfl
        · rw [upd_other _ _ hkj] at hk
          by_cases hki : k = i
          · subst hki
            rw [upd_same, Option.some.injEq] at hk
            cases hk
            rw [hK]; exact hi.elems hB
          · rw [upd_other _ _ hki] at hk; exact hi k xs cap nul hk

/-- Steps with whole vectors, as in programs with several vectors (C108). -/
theorem whole {c : MCS (κ × μ)} {a : MAS (κ × μ)} (t : MTracks mn mx hmm c a) (s : MStep (κ × μ)) (hp : s.Pre mn mx (64 + mx) a) :
    ∃ x a' c', s.mean mn mx a = some (x, a') ∧ s.run mn mx (64 + mx) c = some (x, c') ∧ MTracks mn mx hmm c' a' := by
  refine MStep.good (by omega) ?_ t s hp
  have h1 : mx < 2 ^ mx := Nat.lt_two_pow_self
  have h2 : 2 ^ mx ≤ 2 ^ (64 + mx - 1) := Nat.pow_le_pow_right (by omega) (by omega)
  exact_mod_cast Nat.lt_of_lt_of_le h1 h2

/-- One step. -/
theorem Step.good [DecidableEq κ] [DecidableEq μ] (hK : ∀ i, (K i).Ok) {c : MCS (κ × μ)} {a : MAS (κ × μ)} (t : MTracks mn mx hmm c a) (hi : Inv K a) (s : Step κ μ) (hp : s.Pre mn mx K a) :
    ∃ x a' c', s.mean mn mx K a = some (x, a') ∧ s.run mn mx K c = some (x, c') ∧ MTracks mn mx hmm c' a' ∧ Inv K a' := by
  cases s with
  | look i l =>
    obtain ⟨b, hb, hp⟩ := hp
    obtain ⟨o, xs, cap, nul, ho, ha, hs, v, t1⟩ := t.at_ hb
    obtain ⟨x, b', c', h1, h2, h3, h4, h5, h6⟩ := MLook.good (L := Containers.Vec.lawful (V := κ × μ) mn mx hmm) (hK i) t1 (hi.of hb) l hp
    exact ⟨.saw x, a.put i b', ⟨c'.h, upd c.obj i (some c'.o), c'.its⟩, by simp only [Step.mean, hb, Option.bind_some, h1, Option.map_some], by simp only [Step.run, ho, h2],
      t.put ho ha h3 h5 h6.ptr h6.vars, hi.put h4⟩
  | call i m y =>
    obtain ⟨b, hb, hp⟩ := hp
    exact MTracks.call hK t hi hb y hp
  | insertFrom i y z thr left al =>
    obtain ⟨b, vs, hb, hr, hp⟩ := hp
    obtain ⟨p, q, e1, e2, e3⟩ := t.range hr
    obtain ⟨x, a', c', h1, h2, h3⟩ := MTracks.call hK t hi hb y hp
    exact ⟨x, a', c', by simp only [Step.mean, hr, Option.bind_some, h1], by simp only [Step.run, e1, e2, e3, h2], h3⟩
  | peek x =>
    obtain ⟨⟨j, k⟩, hx, hk⟩ := hp
    have hg : (a.elems j)[k]? = some ((a.elems j)[k]) := List.getElem?_eq_getElem hk
    obtain ⟨p, e1, e2, -⟩ := t.val hx hg
    exact ⟨_, a, c, by simp only [Step.mean, hx, Option.bind_some, hg, Option.map_some]; rfl, by simp only [Step.run, e1, e2, Option.map_some], t, hi⟩
  | poke x v =>
    obtain ⟨⟨j, k⟩, hx, hk⟩ := hp
    simp only at hk
    have hg : (a.elems j)[k]? = some ((a.elems j)[k]) := List.getElem?_eq_getElem hk
    obtain ⟨p, e1, e2, -⟩ := t.val hx hg
    obtain ⟨y, a', c', h1, h2, h3⟩ := whole t (.poke x ((a.elems j)[k].1, v)) ⟨(j, k), hx, hk⟩
    obtain ⟨o, xs, cap, nul, -, ha, -, -⟩ := t.vars x j k hx
    have hof : ∃ b, a.of j = some b ∧ b.s.1 = a.elems j := by simp only [MAS.of, MAS.elems, ha]; exact ⟨_, rfl, rfl⟩
    obtain ⟨b, hb, hbe⟩ := hof
    have hset : setAt b.s.1 k v = b.s.1.set k ((a.elems j)[k].1, v) := by
      rw [setAt_set (by rw [hbe]; exact hk)]
      simp only [hbe]
    have hm : Step.mean mn mx K a (.poke x v) = some (.saw .unit, a.put j { b with s := (setAt b.s.1 k v, b.s.2) }) := by
      simp only [Step.mean, hx, Option.bind_some, hb, Option.map_some]
    have ha' : a' = a.put j { b with s := (setAt b.s.1 k v, b.s.2) } := by
      simp only [MStep.mean, hx, Option.bind_some, hb, Option.map_some, Option.some.injEq, Prod.mk.injEq] at h1
      rw [← h1.2, hset]
    simp only [MStep.run, e1, Option.map_eq_some_iff, Prod.mk.injEq] at h2
    obtain ⟨h', h4, -, h5⟩ := h2
    refine ⟨_, _, c', hm, ?_, ha' ▸ h3, hi.put (Maps.Inv.keys (setAt_keys _ _ _) (hi.of hb))⟩
    simp only [Step.run, e1, e2, h4, Option.map_some, h5]
  | equal i j =>
    obtain ⟨h1, h2⟩ := hp
    obtain ⟨b, hb⟩ := Option.isSome_iff_exists.1 h1
    obtain ⟨b', hb'⟩ := Option.isSome_iff_exists.1 h2
    exact ⟨_, a, c, rfl, by simp only [Step.run, MTracks.elemsOn t hb, MTracks.elemsOn t hb', mapEqual_eq], t, hi⟩
  | make i fails =>
    obtain ⟨x, a', c', h1, h2, h3⟩ := whole t (.make i (.dflt fails)) hp
    refine ⟨_, a', c', by simp only [Step.mean]; rw [show a.whole mn mx (.make i (.dflt fails)) some = _ from h1]; rfl,
      by simp only [Step.run]; rw [show outcome c.its _ = _ from h2]; rfl, h3, ?_⟩
    have h1 : some (_, _) = some (x, a') := h1
    cases h1
    intro k xs cap nul hk
    simp only [Sys.spec] at hk
    split at hk
    · exact hi k xs cap nul hk
    · by_cases hki : k = i
      · subst hki
        rw [upd_same] at hk; cases hk; exact Inv.empty
      · rw [upd_other _ _ hki] at hk; exact hi k xs cap nul hk
  | makeRange i init left fails =>
    obtain ⟨hp, hd⟩ := hp
    obtain ⟨x, a', c', h1, h2, h3⟩ := whole t (.make i (.sized init fails)) hp
    have h1 : a.whole mn mx (.make i (.sized init fails)) some = some (x, a') := h1
    have h2 : outcome c.its ((vsys (κ × μ) mn mx).step (c.h, c.obj) (.make i (.sized init fails))) = some (x, c') := h2
    have h1' := h1
    simp only [MAS.whole, Option.some.injEq, Prod.mk.injEq] at h1'
    obtain ⟨hx, ha'⟩ := h1'
    have hbad : ((vsys (κ × μ) mn mx).spec a.obj (.make i (.sized init fails))).2 = (fails || init.any (·.throws)) := rfl
    rw [hbad] at hx
    have hspec : ((vsys (κ × μ) mn mx).spec a.obj (.make i (.sized init fails))).1 = if (fails || init.any (·.throws)) = true then a.obj else
      upd a.obj i (some (.live (init.map (·.val)) (max init.length mn) false)) := rfl
    rw [hspec] at ha'
    cases hthr : fails || init.any (·.throws) with
    | true =>
      rw [hthr] at hx ha'
      subst hx
      refine ⟨.flag true, a', c', ?_, ?_, h3, ?_⟩
      · simp only [Step.mean, h1, Option.bind_some, if_true]
      · revert h2
        simp only [Step.run]
        cases (vsys (κ × μ) mn mx).step (c.h, c.obj) (.make i (.sized init fails)) <;> intro h2 <;> cases h2
        rfl
      · subst ha'
        simp only [if_true]
        exact hi
    | false =>
      rw [hthr] at hx ha'
      subst hx
      simp only [Bool.false_eq_true, if_false] at ha'
      have hof : ∃ b, a'.of i = some b ∧ b.s.1 = init.map (·.val) := by
        subst ha'; simp only [MAS.of, upd_same]; exact ⟨_, rfl, rfl⟩
      obtain ⟨b, hb, hbe⟩ := hof
      obtain ⟨o, xs, cap, nul, ho, ha, hs, v, t1⟩ := h3.at_ hb
      have r1 := t1.rep
      obtain ⟨h', o', e, r, f, p⟩ := constructOn_spec (L := Containers.Vec.lawful (V := κ × μ) mn mx hmm) (mn := mn) (hK i) left r1 t1.fresh (by rw [hbe]; exact hd)
      have r' : (Containers.Vec.lawful (V := κ × μ) mn mx hmm).Rep h' o' ((K i).insertAll [] (init.map (·.val))) b.s.2 := by rw [← hbe]; exact r
      have t2 : Tracks (Containers.Vec.lawful (V := κ × μ) mn mx hmm) ⟨h', o', c'.its⟩ { b with s := ((K i).insertAll [] (init.map (·.val)), b.s.2) } := by
        refine ⟨r', f.fresh t1.fresh, fun z q hz => ?_⟩
        exfalso
        obtain ⟨ys, cap'', nul'', -, rfl⟩ := MAS.of_some hb
        simp only [Option.bind_eq_some_iff] at hz
        obtain ⟨⟨j, l⟩, hz1, hz2⟩ := hz
        split at hz2
        · rename_i hji
          have hji : j = i := hji
          subst hji
          subst ha'
          simp only [MAS.follow, Option.bind_eq_some_iff] at hz1
          obtain ⟨⟨j', l'⟩, hz1, hz3⟩ := hz1
          simp only [if_true, Option.some.injEq, Prod.mk.injEq] at hz3
          obtain ⟨rfl, rfl⟩ := hz3
          obtain ⟨o, xs, cap, nul, -, e2, -, -⟩ := t.vars z j' l' hz1
          have := hp.1
          rw [e2] at this; cases this
        · cases hz2
      have st : Stays (vec (κ × μ) mn mx) ⟨c'.h, o, c'.its⟩ ⟨h', o', c'.its⟩ { b with s := ((K i).insertAll [] (init.map (·.val)), b.s.2) } :=
        Stays.of_ptr t1 p rfl fun _ _ => rfl
      refine ⟨.flag false, _, ⟨h', upd c'.obj i (some o'), c'.its⟩, ?_, ?_, h3.put ho ha t2 f st.ptr st.vars, ?_⟩
      · simp only [Step.mean, h1, Option.bind_some, hb, Option.map_some]
        rw [if_neg (by simp)]
      · revert h2
        simp only [Step.run]
        cases (vsys (κ × μ) mn mx).step (c.h, c.obj) (.make i (.sized init fails)) with
        | ok w =>
          intro h2
          cases h2
          have ho : w.2 i = some o := ho
          simp only [ho, e]
        | exn w => intro h2; cases h2
        | ub => intro h2; cases h2
      · intro k ys cap'' nul'' hk
        simp only [MAS.put] at hk
        by_cases hki : k = i
        · subst hki
          rw [upd_same, ha] at hk
          cases hk
          exact Maps.Inv.insertAll (hK k) _ Inv.empty
        · rw [upd_other _ _ hki] at hk
          subst ha'
          simp only at hk
          rw [upd_other _ _ hki] at hk
          exact hi k ys cap'' nul'' hk
  | makeFrom i j f =>
    obtain ⟨hp, hKK⟩ := hp
    obtain ⟨x, a', c', h1, h2, h3⟩ := whole t (.makeFrom i j f) hp
    refine ⟨_, a', c', by simp only [Step.mean]; rw [show a.whole mn mx (.makeFrom i j f) (f.goes i j) = _ from h1]; rfl,
      by simp only [Step.run]; rw [show outcome c.its _ = _ from h2]; rfl, h3, ?_⟩
    have h1 : some (_, _) = some (x, a') := h1
    cases h1
    exact hi.makeFrom hKK _
  | assign i j b =>
    obtain ⟨hp, hKK, hs⟩ := hp
    obtain ⟨x, a', c', h1, h2, h3⟩ := whole t (.bin i j b.bin) hp
    refine ⟨_, a', c', by simp only [Step.mean]; rw [show a.whole mn mx (.bin i j b.bin) (b.bin.goes i j) = _ from h1]; rfl,
      by simp only [Step.run]; rw [show outcome c.its _ = _ from h2]; rfl, h3, ?_⟩
    have h1 : some (_, _) = some (x, a') := h1
    cases h1
    exact hi.assign hKK hs _
  | drop i =>
    obtain ⟨x, a', c', h1, h2, h3⟩ := whole t (.drop i) hp
    refine ⟨_, a', c', by simp only [Step.mean]; rw [show a.whole mn mx (.drop i) _ = _ from h1]; rfl,
      by simp only [Step.run]; rw [show outcome c.its _ = _ from h2]; rfl, h3, ?_⟩
    have h1 : some (_, _) = some (x, a') := h1
    cases h1
    intro k xs cap nul hk
    simp only [Sys.spec] at hk
    by_cases hki : k = i
    · subst hki
      rw [upd_same] at hk; cases hk
    · rw [upd_other _ _ hki] at hk; exact hi k xs cap nul hk

/-- C111: a program with any number of maps and iterators of them that keeps to the rules (`Step.Pre`) is defined; everything it reads, which steps throw, which maps are equal and every
iterator it is given are as for sequences of elements with positions, whatever throws and whatever allocation fails. At every moment every map has its elements in the order of their
keys (a linear map: no key twice), maps have no storage in common, and every block is owned by a map. What is missing: besides what is missing in C106, copy assignment in which the assignment
of an element throws (`C111_copy_assignment_violated`), and uses of maps that have been moved from other than assignment, copy and destruction. -/
theorem C111_program_partial [DecidableEq κ] [DecidableEq μ] (hK : ∀ i, (K i).Ok) : ∀ (P : Prog κ μ R) {c : MCS (κ × μ)} {a : MAS (κ × μ)}, MTracks mn mx hmm c a → Inv K a → P.Pre mn mx K a →
    ∃ r a' c', P.mean mn mx K a = some (r, a') ∧ P.run mn mx K c = some (r, c') ∧ MTracks mn mx hmm c' a' ∧ Inv K a'
  | .ret r, c, a, t, hi, _ => ⟨r, a, c, rfl, rfl, t, hi⟩
  | .step s k, c, a, t, hi, ⟨h1, h2⟩ => by
    obtain ⟨x, a1, c1, e1, e2, t1, i1⟩ := Step.good hK t hi s h1
    obtain ⟨r, a2, c2, e3, e4, t2, i2⟩ := C111_program_partial hK (k x) t1 i1 (h2 _ e1)
    exact ⟨r, a2, c2, by simp only [Prog.mean, e1, Option.bind_some, e3], by simp only [Prog.run, e2, e4], t2, i2⟩

/-- C111 from the beginning, when there is nothing. If the program destroys all its maps, nothing stays allocated. -/
theorem C111_maps_partial [DecidableEq κ] [DecidableEq μ] (hmm : mn ≤ mx) (hK : ∀ i, (K i).Ok) (P : Prog κ μ R) (hp : P.Pre mn mx K ⟨fun _ => none, fun _ => none⟩) :
    ∃ r a c, P.mean mn mx K ⟨fun _ => none, fun _ => none⟩ = some (r, a) ∧ P.run mn mx K ⟨⟨fun _ => none, 0⟩, fun _ => none, fun _ => none⟩ = some (r, c) ∧
      MTracks mn mx hmm c a ∧ Inv K a ∧ ((∀ i, a.obj i = none) → ∀ n, c.h.blk n = none) := by
  obtain ⟨r, a, c, e1, e2, t, i⟩ := C111_program_partial (hmm := hmm) hK P (c := ⟨⟨fun _ => none, 0⟩, fun _ => none, fun _ => none⟩) (a := ⟨fun _ => none, fun _ => none⟩)
    ⟨Sys.rel_start, fun x i k h => by cases h⟩ (fun i xs cap nul h => by cases h) hp
  exact ⟨r, a, c, e1, e2, t, i, fun h n => t.rel.empty h n⟩

/-- A call gives no positions except to its own variable and to variables that had one. -/
theorem MCall.mean_pos {K : Kind κ μ} {q : Containers.Cfg} {m : MCall κ μ} {y x : Nat} {b : AS (κ × μ)} {r : MRes × AS (κ × μ)} (h : m.mean K q y b = some r) (hx : b.pos x = none) (hxy : x ≠ y) :
    r.2.pos x = none := by
  have after : ∀ u g, (afterOp q u g y b).pos x = none := by
    intro u g
    simp only [afterOp]
    rw [if_neg (fun h => hxy h.1), hx]; rfl
  cases m <;> simp only [MCall.mean, Option.map_eq_some_iff, Option.bind_eq_some_iff] at h
  case insert k v t al =>
    split at h <;> cases h
    · simp only [AS.set]; rw [if_neg hxy]; exact hx
    · exact after _ _
  case insertRange init left al =>
    cases h
    simp only
    split
    · exact hx
    · cases K <;> simp only [Kind.afterRange]
      rw [hx]; rfl
  case erase z => obtain ⟨p, -, rfl⟩ := h; exact after _ _
  case eraseRange z z' => obtain ⟨p, -, p', -, rfl⟩ := h; exact after _ _
  case eraseIf p mv => cases h; exact after _ _
  case reserve n f => cases h; exact after _ _

/-- A function of one map leaves the others alone: they have the same elements, iterators of them are where they were and refer to the same elements. -/
theorem C111_others_stay [DecidableEq κ] [DecidableEq μ] (hK : ∀ i, (K i).Ok) {c : MCS (κ × μ)} {a : MAS (κ × μ)} (t : MTracks mn mx hmm c a) (hi : Inv K a) {i j x k y : Nat} (hij : j ≠ i)
    (hx : a.pos x = some (j, k)) (hxy : x ≠ y) (m : MCall κ μ) (hp : (Step.call i m y).Pre mn mx K a) :
    ∃ r a' c', (Step.call i m y).mean mn mx K a = some (r, a') ∧ (Step.call i m y).run mn mx K c = some (r, c') ∧ MTracks mn mx hmm c' a' ∧ a'.obj j = a.obj j ∧ a'.pos x = some (j, k) ∧
      c'.its x = c.its x ∧ ∀ p, c.its x = some p → c'.h.load p = c.h.load p := by
  obtain ⟨r, a', c', h1, h2, h3, -⟩ := Step.good hK t hi _ hp
  obtain ⟨b, hb, -⟩ := hp
  obtain ⟨o, xs, cap, nul, e1, e2, e3, e4⟩ := t.vars x j k hx
  have h1' := h1
  simp only [Step.mean, callMeans, hb, Option.bind_some, Option.map_eq_some_iff, Prod.mk.injEq] at h1'
  obtain ⟨r', hr, -, rfl⟩ := h1'
  have hobj : (a.put i r'.2).obj j = a.obj j := by simp only [MAS.put]; exact upd_other _ _ hij
  have hpos : (a.put i r'.2).pos x = some (j, k) := by
    have hbx : b.pos x = none := by
      obtain ⟨ys, cap', nul', -, rfl⟩ := MAS.of_some hb
      simp only [hx, Option.bind_some]
      exact if_neg hij
    simp only [MAS.put, MCall.mean_pos hr hbx hxy, hx]
    simp [hij]
  obtain ⟨o', xs', cap', nul', d1, d2, d3, d4⟩ := h3.vars x j k hpos
  have hoo : o' = o := by
    have h2' := h2
    simp only [Step.run, callOn] at h2'
    split at h2'
    · cases h2'
    · split at h2'
      · cases h2'
      · cases h2'
        simp only at d1
        rw [upd_other _ _ hij, e1] at d1
        cases d1; rfl
  subst hoo
  refine ⟨r, _, c', h1, h2, h3, hobj, hpos, d3.trans e3.symm, fun p hp => ?_⟩
  rw [e3] at hp; cases hp
  rw [hobj, e2] at d2; cases d2
  have v := t.rel.good j o' _ e1 e2
  have v' := h3.rel.good j o' _ d1 (hobj.trans e2)
  have hm : Containers.Vec.mem c.h o' = (cap, Containers.cells xs) := v.1.mem
  have hm' : Containers.Vec.mem c'.h o' = (cap, Containers.cells xs) := v'.1.mem
  simp only [Heap.load, Impl.addr]
  show (match o'.ptr with | none => none | some b => _) = (match o'.ptr with | none => none | some b => _)
  cases hptr : o'.ptr with
  | none => rfl
  | some n =>
    have b1 : c.h.blk n = some ⟨cap, Containers.cells xs⟩ := by
      have ow := (Containers.Vec.laws mn mx hmm).owned (b := n) v hptr
      cases hb : c.h.blk n with
      | none => exact absurd hb ow
      | some B =>
        obtain ⟨Bc, Bm⟩ := B
        rw [Containers.Vec.mem_some hptr hb] at hm
        simp only [Prod.mk.injEq] at hm
        rw [hm.1, hm.2]
    have b2 : c'.h.blk n = some ⟨cap, Containers.cells xs⟩ := by
      have ow := (Containers.Vec.laws mn mx hmm).owned (b := n) v' hptr
      cases hb : c'.h.blk n with
      | none => exact absurd hb ow
      | some B =>
        obtain ⟨Bc, Bm⟩ := B
        rw [Containers.Vec.mem_some hptr hb] at hm'
        simp only [Prod.mk.injEq] at hm'
        rw [hm'.1, hm'.2]
    simp only [b1, b2]

/-- Move assignment. -/
theorem mean_move [DecidableEq κ] [DecidableEq μ] {a : MAS (κ × μ)} {i j : Nat} (hij : i ≠ j) {A B : VA (κ × μ)} (hA : a.obj i = some A) (hB : a.obj j = some B) :
    (Step.assign i j .move).mean mn mx K a = some (.flag false, ⟨upd (upd a.obj i (some B)) j (some .moved), a.follow (VBin.goes (V := κ × μ) i j .move)⟩) := by
  simp only [Step.mean, MAS.whole, Assign.bin, Sys.spec, hA, hB, if_neg hij, Option.map_some]
  rfl

/-- Move construction. -/
theorem mean_moveFrom [DecidableEq κ] [DecidableEq μ] {a : MAS (κ × μ)} {i j : Nat} {B : VA (κ × μ)} (hB : a.obj j = some B) :
    (Step.makeFrom i j .move).mean mn mx K a = some (.flag false, ⟨upd (upd a.obj i (some B)) j (some .moved), a.follow (VFrom.goes i j .move)⟩) := by
  simp only [Step.mean, MAS.whole, Sys.spec, hB, Option.map_some]
  rfl

/-- The destructor. -/
theorem mean_drop [DecidableEq κ] [DecidableEq μ] {a : MAS (κ × μ)} {i : Nat} :
    (Step.drop i).mean mn mx K a = some (.flag false, ⟨upd a.obj i none, a.follow fun k => if k = i then none else some k⟩) := by
  simp only [Step.mean, MAS.whole, Sys.spec, Option.map_some]
  rfl

/-- `std::swap` of two maps (they have no function of their own): moves through a third. -/
def swapProg (i j t : Nat) : Prog κ μ Unit :=
  .step (.makeFrom t i .move) fun _ => .step (.assign i j .move) fun _ => .step (.assign j t .move) fun _ => .step (.drop t) fun _ => .ret ()

/-- After `std::swap` of two maps each has what the other had, and iterators to elements are iterators to the same elements, which are now in the other map. -/
theorem C111_swap [DecidableEq κ] [DecidableEq μ] (hK : ∀ i, (K i).Ok) {c : MCS (κ × μ)} {a : MAS (κ × μ)} (t : MTracks mn mx hmm c a) (hi : Inv K a) {i j n : Nat} (hij : i ≠ j)
    {A B : VA (κ × μ)} (hA : a.obj i = some A) (hB : a.obj j = some B) (hn : a.obj n = none) (hij' : K i = K j) (hin : K n = K i) :
    ∃ a' c', (swapProg i j n : Prog κ μ Unit).run mn mx K c = some ((), c') ∧ MTracks mn mx hmm c' a' ∧ Inv K a' ∧ a'.obj = upd (upd a.obj i (some B)) j (some A) ∧ c'.its = c.its ∧
      (∀ x k, a.pos x = some (i, k) → k < A.elems.length → a'.pos x = some (j, k)) ∧ (∀ x k, a.pos x = some (j, k) → k < B.elems.length → a'.pos x = some (i, k)) ∧
      ∀ x l k, a.pos x = some (l, k) → l ≠ i → l ≠ j → a'.pos x = some (l, k) := by
  have hni : n ≠ i := by rintro rfl; rw [hn] at hA; cases hA
  have hnj : n ≠ j := by rintro rfl; rw [hn] at hB; cases hB
  have keep : ∀ {its : Nat → Option Addr} {w} {f : Ans (κ × μ) × MCS (κ × μ) → Reply κ μ} {r c'}, (outcome its w).map (fun r => (f r, r.2)) = some (r, c') → c'.its = its := by
    intro its w f r c' h
    cases w <;> simp only [outcome, Option.map_some, Option.map_none, Option.some.injEq, Prod.mk.injEq, reduceCtorEq] at h <;> exact h.2 ▸ rfl
  have hj1 : upd (upd a.obj n (some A)) i (some .moved) j = some B := by rw [upd_other _ _ (Ne.symm hij), upd_other _ _ (Ne.symm hnj)]; exact hB
  obtain ⟨r1, a1, c1, m1, e1, t1, i1⟩ := Step.good hK t hi (.makeFrom n i .move) ⟨⟨hn, A, hA, trivial⟩, hin⟩
  rw [mean_moveFrom hA] at m1; cases m1
  obtain ⟨r2, a2, c2, m2, e2, t2, i2⟩ := Step.good hK t1 i1 (.assign i j .move) ⟨⟨.moved, B, upd_same .., hj1, by rw [if_neg hij]; trivial⟩, hij', trivial⟩
  rw [mean_move (A := .moved) (B := B) hij (upd_same ..) hj1] at m2; cases m2
  have hn2 : upd (upd (upd (upd a.obj n (some A)) i (some .moved)) i (some B)) j (some .moved) n = some A := by
    rw [upd_other _ _ hnj, upd_other _ _ hni, upd_other _ _ hni, upd_same]
  obtain ⟨r3, a3, c3, m3, e3, t3, i3⟩ := Step.good hK t2 i2 (.assign j n .move) ⟨⟨.moved, A, upd_same .., hn2, by rw [if_neg (Ne.symm hnj)]; trivial⟩, (hin.trans hij').symm, trivial⟩
  rw [mean_move (A := .moved) (B := A) (Ne.symm hnj) (upd_same ..) hn2] at m3; cases m3
  obtain ⟨r4, a4, c4, m4, e4, t4, i4⟩ := Step.good hK t3 i3 (.drop n) ⟨.moved, upd_same ..⟩
  rw [mean_drop] at m4; cases m4
  have q1 := keep e1
  have q2 := keep e2
  have q3 := keep e3
  have q4 := keep e4
  refine ⟨_, c4, by simp only [swapProg, Prog.run, e1, e2, e3, e4], t4, i4, ?_, by rw [q4, q3, q2, q1], ?_, ?_, ?_⟩
  · funext l
    by_cases h1 : l = n
    · subst h1; simp [upd, hni, hnj, hn]
    · by_cases h2 : l = j
      · subst h2; simp [upd, h1]
      · by_cases h3 : l = i
        · subst h3; simp [upd, h1, h2]
        · simp [upd, h1, h2, h3]
  · intro x k hx hk
    simp [MAS.follow, hx, VFrom.goes, VBin.goes, MAS.elems, upd, hA, hB, hni, hnj, hij, Ne.symm hni, Ne.symm hnj, Ne.symm hij, hk]
  · intro x k hx hk
    simp [MAS.follow, hx, VFrom.goes, VBin.goes, MAS.elems, upd, hA, hB, hni, hnj, hij, Ne.symm hni, Ne.symm hnj, Ne.symm hij, hk]
  · intro x l k hx h1 h2
    have h3 : l ≠ n := by
      rintro rfl
      obtain ⟨o, xs, cap, nul, -, d2, -⟩ := t.vars x l k hx
      rw [hn] at d2; cases d2
    simp [MAS.follow, hx, VFrom.goes, VBin.goes, h1, h2, h3]

/-- Inserting all elements of one `flat_map` into another: it has the elements of both, for keys that both have its own; or nothing has changed, if something throws. The other map
keeps its elements. -/
theorem C111_union [DecidableEq κ] [DecidableEq μ] (hK : ∀ i, (K i).Ok) {c : MCS (κ × μ)} {a : MAS (κ × μ)} (t : MTracks mn mx hmm c a) (hi : Inv K a) {i j y z : Nat} {C : Cfg κ μ} (hij : j ≠ i)
    (hi' : K i = .flat C) (hj' : K j = .flat C) {xs ys : List (κ × μ)} {cap cap' : Nat} {nul nul' : Bool} (hA : a.obj i = some (.live xs cap nul)) (hB : a.obj j = some (.live ys cap' nul'))
    (hy : a.pos y = some (j, 0)) (hz : a.pos z = some (j, ys.length)) (hs : C.Sortable ys) (hr : Containers.appendPre (vcfg mn mx) (xs, cap) ys.length) (thr : Nat → Bool) (left : κ × μ)
    (al : Nat → Bool) :
    ∃ r a' c', (Step.insertFrom i y z thr left al).run mn mx K c = some (r, c') ∧ MTracks mn mx hmm c' a' ∧ Inv K a' ∧ a'.obj j = a.obj j ∧
      (r = .did .threw ∧ a'.elems i = xs ∨ r = .did (.done false) ∧ ∀ e, e ∈ a'.elems i ↔ e ∈ xs ∨ e ∈ ys ∧ ∀ x ∈ xs, ¬ C.Same x.1 e.1) := by
  have hrange : a.range i y z = some ys := by
    simp only [MAS.range, hy, hz, MAS.elems, hB]
    rw [if_pos ⟨trivial, hij, Nat.zero_le _⟩]
    simp [VA.elems]
  have hd : ys.Pairwise fun x y => ¬ C.Same x.1 y.1 := by
    have h := hi j ys cap' nul' hB
    rw [hj'] at h
    exact List.Pairwise.imp (fun {x y} hxy hsame => by rw [hsame.1] at hxy; cases hxy) h
  have hof : ∃ b, a.of i = some b ∧ b.s = (xs, cap) := ⟨_, by simp only [MAS.of, hA]; rfl, rfl⟩
  obtain ⟨b, hb, hbs⟩ := hof
  have hlen : (items ys thr).length = ys.length := by simp [items]
  obtain ⟨r, a', c', h1, h2, h3, h4⟩ := Step.good hK t hi (.insertFrom i y z thr left al) ⟨b, ys, hb, hrange, by rw [hbs, hlen]; exact hr, fun C' hC' => by
    rw [hi'] at hC'
    rcases hC' with hC' | hC' <;> cases hC'
    rw [items_val]
    exact ⟨hs, hd⟩⟩
  refine ⟨r, a', c', h2, h3, h4, ?_⟩
  simp only [Step.mean, hrange, Option.bind_some, callMeans, hb, MCall.mean, Option.map_some, Option.some.injEq, Prod.mk.injEq] at h1
  obtain ⟨rfl, rfl⟩ := h1
  refine ⟨by simp only [MAS.put]; exact upd_other _ _ hij, ?_⟩
  simp only [resOp]
  by_cases hth : ((GOp.append (items ys thr) al).spec (vcfg mn mx) b.s).2 = true
  · left
    simp only [hth, if_true, true_and]
    simp only [MAS.elems, MAS.put, upd_same, hbs, hA]
    rfl
  · right
    have hth : ((GOp.append (items ys thr) al).spec (vcfg mn mx) b.s).2 = false := by simpa using hth
    simp only [hth, Bool.false_eq_true, if_false, true_and]
    intro e
    simp only [MAS.elems, MAS.put, upd_same, hbs, hA]
    show e ∈ (K i).insertAll xs ((items ys thr).map (·.val)) ↔ _
    rw [hi', items_val]
    have := hK i
    rw [hi'] at this
    exact mem_insertEach this.1.order ys hd e

/-! ## The hypotheses can be met -/

/-- A decision procedure for what the program has to ensure, without ranges for sorted maps; `same i j` says that the maps `i` and `j` have the same type. -/
def Step.ok (mn mx : Nat) (K : Nat → Kind κ μ) (same : Nat → Nat → Bool) (a : MAS (κ × μ)) : Step κ μ → Bool
  | .look i l => (a.of i).any fun b => l.ok (K i) b
  | .call i m _ => (a.of i).any fun b => m.ok (K i) (vcfg mn mx) b
  | .insertFrom i y z thr left al => (a.of i).any fun b => (a.range i y z).any fun vs => (MCall.insertRange (items vs thr) left al).ok (K i) (vcfg mn mx) b
  | .peek x | .poke x _ => (a.pos x).any fun p => decide (p.2 < (a.elems p.1).length)
  | .equal i j => (a.of i).isSome && (a.of j).isSome
  | .make i fails => decide ((vsys (κ × μ) mn mx).pre a.obj (.make i (.dflt fails)))
  | .makeRange i init _ fails => decide ((vsys (κ × μ) mn mx).pre a.obj (.make i (.sized init fails))) && match K i with | .linear _ => true | _ => false
  | .makeFrom i j f => decide ((vsys (κ × μ) mn mx).pre a.obj (.makeFrom i j f)) && same i j
  | .assign i j b => decide ((vsys (κ × μ) mn mx).pre a.obj (.bin i j b.bin)) && same i j && match b with
    | .copy thr _ _ => (List.range (a.elems i).length).all fun k => !thr k
    | _ => true
  | .drop i => decide ((vsys (κ × μ) mn mx).pre a.obj (.drop i))

@[inherit_doc Step.ok]
def Prog.ok [DecidableEq κ] [DecidableEq μ] (mn mx : Nat) (K : Nat → Kind κ μ) (same : Nat → Nat → Bool) : Prog κ μ R → MAS (κ × μ) → Bool
  | .ret _, _ => true
  | .step s k, a => s.ok mn mx K same a && match s.mean mn mx K a with
    | some x => (k x.1).ok mn mx K same x.2
    | none => true

theorem Step.ok_pre {same : Nat → Nat → Bool} (hs : ∀ i j, same i j = true → K i = K j) {a : MAS (κ × μ)} {s : Step κ μ} (h : s.ok mn mx K same a = true) : s.Pre mn mx K a := by
  cases s <;> simp only [Step.ok, Option.any_eq_true, decide_eq_true_eq, Bool.and_eq_true] at h
  case look => obtain ⟨b, h1, h2⟩ := h; exact ⟨b, h1, MLook.ok_pre h2⟩
  case call => obtain ⟨b, h1, h2⟩ := h; exact ⟨b, h1, MCall.ok_pre h2⟩
  case insertFrom => obtain ⟨b, h1, vs, h2, h3⟩ := h; exact ⟨b, vs, h1, h2, MCall.ok_pre h3⟩
  case makeRange =>
    refine ⟨h.1, fun C hC => ?_⟩
    rcases hC with hC | hC <;> rw [hC] at h <;> cases h.2
  case makeFrom i j f => exact ⟨h.1, hs _ _ h.2⟩
  case assign i j b =>
    refine ⟨h.1.1, hs _ _ h.1.2, ?_⟩
    cases b with
    | copy thr left al => exact fun k hk => by simpa using List.all_eq_true.1 h.2 k (List.mem_range.2 hk)
    | _ => exact trivial
  all_goals exact h

theorem Prog.ok_pre [DecidableEq κ] [DecidableEq μ] {same : Nat → Nat → Bool} (hs : ∀ i j, same i j = true → K i = K j) :
    ∀ {P : Prog κ μ R} {a : MAS (κ × μ)}, P.ok mn mx K same a = true → P.Pre mn mx K a
  | .ret _, _, _ => trivial
  | .step s k, a, h => by
    simp only [Prog.ok, Bool.and_eq_true] at h
    refine ⟨Step.ok_pre hs h.1, fun x hx => ?_⟩
    have := h.2
    rw [hx] at this
    exact Prog.ok_pre hs this

/-- Maps with numbers below 10 are flat maps, those below 20 are multimaps, the others linear maps. -/
def exKinds (i : Nat) : Kind Nat Nat := if i < 10 then .flat exMap else if i < 20 then .multi (exMulti 100) else .linear exLin

/-- Which of them have the same type. -/
def exSame (i j : Nat) : Bool := (decide (i < 10) == decide (j < 10)) && (decide (i < 20) == decide (j < 20))

theorem exKinds_ok (i : Nat) : (exKinds i).Ok := by
  simp only [exKinds]
  split
  · exact ⟨exCfg_ok exStd_sorts 100 .keep, by decide⟩
  · split
    · exact exMulti_ok
    · exact exLin_eq

theorem exSame_eq (i j : Nat) (h : exSame i j = true) : exKinds i = exKinds j := by
  simp only [exSame, Bool.and_eq_true, beq_iff_eq, decide_eq_decide] at h
  simp only [exKinds, h.1, h.2]

/-- A program: a flat map with two elements, and an iterator to one of them; a copy, which is made different and compared; a third map takes over the first one, and the iterator is
read and written; the elements are put into a linear map made from a range, one of whose keys is there already; the maps are assigned and destroyed. -/
def exSeveral : Prog Nat Nat (List (Reply Nat Nat)) :=
  .step (.make 0 false) fun _ => .step (.call 0 (.insert 5 1 false fun _ => false) 0) fun _ => .step (.call 0 (.insert 3 2 false fun _ => false) 0) fun _ =>
  .step (.makeFrom 1 0 (.copy (fun _ => false) false)) fun _ => .step (.equal 0 1) fun r1 => .step (.look 1 (.update 5 8)) fun _ => .step (.equal 0 1) fun r2 =>
  .step (.look 0 (.find 3 0)) fun _ => .step (.makeFrom 2 0 .move) fun _ => .step (.peek 0) fun r3 => .step (.poke 0 7) fun _ => .step (.look 2 (.last 1)) fun _ =>
  .step (.makeRange 20 [⟨(5, 9), false⟩, ⟨(4, 4), false⟩, ⟨(5, 6), false⟩] (0, 0) false) fun r4 => .step (.insertFrom 20 0 1 (fun _ => false) (0, 0) fun _ => false) fun r5 =>
  .step (.look 20 .iterate) fun r6 => .step (.assign 0 1 (.copy (fun k => k == 1) (0, 0) fun _ => false)) fun r7 => .step (.assign 2 1 .move) fun _ => .step (.look 2 .iterate) fun r8 =>
  .step (.make 10 false) fun _ => .step (.call 10 (.insert 5 1 false fun _ => false) 4) fun _ => .step (.call 10 (.insert 5 1 true fun _ => false) 4) fun r9 =>
  .step (.drop 10) fun _ => .step (.drop 20) fun _ => .step (.drop 2) fun _ => .step (.drop 1) fun _ => .step (.drop 0) fun _ => .ret [r1, r2, r3, r4, r5, r6, r7, r8, r9]

/-- What it learns, by the code and by the meaning. -/
example : (exSeveral.run 0 100 exKinds ⟨⟨fun _ => none, 0⟩, fun _ => none, fun _ => none⟩).map (·.1) = some [.flag true, .flag false, .saw (.entry (3, 2)), .flag false, .did (.done false),
      .saw (.entries [(5, 9), (4, 4), (3, 7)]), .flag true, .saw (.entries [(3, 2), (5, 8)]), .did .threw] ∧
    (exSeveral.mean 0 100 exKinds ⟨fun _ => none, fun _ => none⟩).map (·.1) = some [.flag true, .flag false, .saw (.entry (3, 2)), .flag false, .did (.done false),
      .saw (.entries [(5, 9), (4, 4), (3, 7)]), .flag true, .saw (.entries [(3, 2), (5, 8)]), .did .threw] := by
  constructor <;> decide +kernel

/-- The hypotheses of `C111_maps_partial` for it. -/
example : (∀ i, (exKinds i).Ok) ∧ exSeveral.Pre 0 100 exKinds ⟨fun _ => none, fun _ => none⟩ := ⟨exKinds_ok, Prog.ok_pre exSame_eq (by decide +kernel)⟩

deriving instance DecidableEq for VA

/-- The hypotheses of the other theorems: two flat maps, an iterator to the first and to the end of one of them, and a third map that does not exist. -/
example : ∃ (c : MCS (Nat × Nat)) (a : MAS (Nat × Nat)), MTracks 0 100 (Nat.zero_le _) c a ∧ Inv exKinds a ∧ a.obj 0 = some (.live [(3, 2), (5, 1)] 2 false) ∧ a.obj 1 = some (.live [(3, 9)] 1 false) ∧
    a.obj 2 = none ∧ a.pos 0 = some (0, 0) ∧ a.pos 1 = some (0, 2) ∧ exKinds 0 = .flat exMap ∧ exKinds 1 = .flat exMap ∧ exKinds 2 = .flat exMap ∧ exMap.Sortable [(3, 2), (5, 1)] ∧
    Containers.appendPre (vcfg 0 100) ([(3, 9)], 1) 2 ∧ (Step.call 1 (.insert 4 4 false fun _ => false) 7).Pre 0 100 exKinds a := by
  obtain ⟨r, a, c, e1, -, t, i, -⟩ := C111_maps_partial (mn := 0) (mx := 100) (K := exKinds) (R := Unit) (Nat.zero_le _) exKinds_ok
    (.step (.make 0 false) fun _ => .step (.call 0 (.insert 5 1 false fun _ => false) 0) fun _ => .step (.call 0 (.insert 3 2 false fun _ => false) 0) fun _ =>
      .step (.make 1 false) fun _ => .step (.call 1 (.insert 3 9 false fun _ => false) 2) fun _ => .step (.look 0 (.first 0)) fun _ => .step (.look 0 (.last 1)) fun _ => .ret ())
    (Prog.ok_pre exSame_eq (by decide +kernel))
  refine ⟨c, a, t, i, ?_⟩
  cases e1
  exact ⟨by decide +kernel, by decide +kernel, rfl, by decide +kernel, by decide +kernel, rfl, rfl, rfl, .inl (.inl (by decide)), (fun hr => by cases hr), Step.ok_pre exSame_eq (by decide +kernel)⟩

/-- The keys of a `flat_map` are found as long as they are in order. If the assignment of an element throws in copy assignment, some elements have been assigned and
others not, so that the keys need not be in order any more: here 5 is there, but is not found. -/
theorem C111_copy_assignment_violated : ((.step (.make 0 false) fun _ => .step (.call 0 (.insert 1 1 false fun _ => false) 0) fun _ => .step (.call 0 (.insert 2 2 false fun _ => false) 0) fun _ =>
      .step (.call 0 (.insert 3 3 false fun _ => false) 0) fun _ => .step (.make 1 false) fun _ => .step (.call 1 (.insert 5 5 false fun _ => false) 0) fun _ =>
      .step (.call 1 (.insert 6 6 false fun _ => false) 0) fun _ => .step (.call 1 (.insert 7 7 false fun _ => false) 0) fun _ =>
      .step (.assign 0 1 (.copy (fun k => k == 1) (2, 2) fun _ => false)) fun r => .step (.look 0 .iterate) fun es => .step (.look 0 (.lookup 5)) fun v => .ret [r, es, v] :
      Prog Nat Nat (List (Reply Nat Nat))).run 0 100 exKinds ⟨⟨fun _ => none, 0⟩, fun _ => none, fun _ => none⟩).map (·.1) =
    some [.flag true, .saw (.entries [(5, 5), (2, 2), (3, 3)]), .saw (.mapped none)] := by
  decide +kernel

/-- A map that has been moved from cannot be used like an empty one: the next `insert` is undefined. -/
theorem C111_moved_from_violated : ((.step (.make 0 false) fun _ => .step (.call 0 (.insert 1 1 false fun _ => false) 0) fun _ => .step (.makeFrom 1 0 .move) fun _ =>
      .step (.call 0 (.insert 2 2 false fun _ => false) 0) fun r => .ret r : Prog Nat Nat (Reply Nat Nat)).run 0 100 exKinds ⟨⟨fun _ => none, 0⟩, fun _ => none, fun _ => none⟩).isNone = true := by
  decide +kernel

end Verif.Maps.Several
