import Verif.Maps.MultiMap
import Verif.Maps.LinearMap

/-!
# Using maps by key: `keyed_insert`, `keyed_erase`, `lookup` (C71)

`containers/algorithms/keyed_insert.cpp` and `containers/algorithms/keyed_erase.cpp`, on the models of `flat_map`, `linear_map` and `flat_multimap`.
The specification is a function from keys to values (to lists of values for a multimap), together with a number of elements.
-/

namespace Verif.Maps

open Verif.Algo Verif.Algo.Mem

variable {κ μ : Type}

/-! ## Model -/

/-- What `keyed_erase` uses of an associative container: its member function `find`, if it has one, and `keyed_equal_range`. -/
structure Assoc (κ μ : Type) where
  find : Option (List (κ × μ) → κ → Option Nat)
  equalRange : List (κ × μ) → κ → Option (Nat × Nat)

/-- `keyed_erase` (`algorithms/keyed_erase.cpp` 28-43): the contents and the number that is returned. -/
def Assoc.keyedErase (A : Assoc κ μ) (xs : List (κ × μ)) (key : κ) : Option (List (κ × μ) × Nat) :=
  match A.find with
  | some find => do
    let it ← find xs key
    if it = xs.length then some (xs, 0)
    else do
      let ys ← eraseAt xs it
      some (ys, 1)
  | none => do
    let (first, last) ← A.equalRange xs key
    let erased := last - first
    let ys ← eraseBetween xs first last
    some (ys, erased)

/-- A sorted map (`flat_map.cpp` 320-327); the range of a key is never asked for. -/
def Cfg.assoc (C : Cfg κ μ) : Assoc κ μ := ⟨some C.find, C.keyedEqualRange⟩

/-- A sorted multimap has no member function `find` (`flat_map.cpp` 365-391). -/
def Cfg.multiAssoc (C : Cfg κ μ) : Assoc κ μ := ⟨none, C.keyedEqualRange⟩

/-- An unsorted map (`linear_map.cpp` 136-142). It has no function `compare`, so that `keyed_equal_range` cannot be called. -/
def Lin.assoc (L : Lin κ) : Assoc κ μ := ⟨some L.find, fun _ _ => none⟩

/-- A multimap of the standard library: it has a member function `find`, of which the standard says that the iterator it returns refers to some element with the key. -/
def stdAssoc (find : List (κ × μ) → κ → Option Nat) : Assoc κ μ := ⟨some find, fun _ _ => none⟩

/-- An object that is passed as an rvalue: its members, and whether they have been moved from. -/
structure Given (κ μ : Type) where
  key : κ
  mapped : μ
  keyMoved : Bool
  mappedMoved : Bool
deriving DecidableEq

/-- `value_type{OPERATORS_FORWARD(key), OPERATORS_FORWARD(mapped)()}` with an rvalue (`flat_map.cpp` 248, `linear_map.cpp` 152): braces are evaluated from left to right. Reading a member
that has been moved from does not give its value. -/
def Given.take (g : Given κ μ) : Option ((κ × μ) × Given κ μ) :=
  if g.keyMoved || g.mappedMoved then none else some ((g.key, g.mapped), { g with keyMoved := true, mappedMoved := true })

/-- `keyed_insert(map, std::move(value))` (`algorithms/keyed_insert.cpp` 48-55) into a sorted map; the search reads the key through a reference
(`flat_map.cpp` 241-264). -/
def Cfg.keyedInsertMove (C : Cfg κ μ) (xs : List (κ × μ)) (g : Given κ μ) : Option (List (κ × μ) × Nat × Bool × Given κ μ) := do
  let position ← C.keyedUpperBound xs g.key
  let addElement : Option (List (κ × μ) × Nat × Bool × Given κ μ) := do
    let (e, g) ← g.take
    let ys ← C.insertAt xs position e
    some (ys, position, true, g)
  if position = 0 then addElement
  else do
    let before ← xs[position - 1]?
    if C.lt before.1 g.key then addElement
    else some (xs, position - 1, false, g)

/-- What is done with a map by key. -/
inductive KOp (κ μ : Type)
  | insert (key : κ) (mapped : μ)
  | erase (key : κ)
  | lookup (key : κ)
  | size

/-- What is seen of it. -/
inductive KObs (μ : Type)
  | inserted (b : Bool)
  | erased (n : Nat)
  | found (v : Option μ)
  | size (n : Nat)
deriving DecidableEq

/-- A step with a sorted map. `keyed_insert` of a key and a value or of an element calls `lazy_insert` (`algorithms/keyed_insert.cpp` 33-47). -/
def Cfg.kstep (C : Cfg κ μ) (xs : List (κ × μ)) : KOp κ μ → Option (List (κ × μ) × KObs μ)
  | .insert k v => do
    let (ys, _, b) ← C.lazyInsert xs k v
    some (ys, .inserted b)
  | .erase k => do
    let (ys, n) ← C.assoc.keyedErase xs k
    some (ys, .erased n)
  | .lookup k => do
    let r ← C.lookup xs k
    some (xs, .found r)
  | .size => some (xs, .size xs.length)

/-- A step with an unsorted map. -/
def Lin.kstep (L : Lin κ) (xs : List (κ × μ)) : KOp κ μ → Option (List (κ × μ) × KObs μ)
  | .insert k v => do
    let (ys, _, b) ← L.lazyInsert xs k v
    some (ys, .inserted b)
  | .erase k => do
    let (ys, n) ← L.assoc.keyedErase xs k
    some (ys, .erased n)
  | .lookup k => do
    let r ← L.lookup xs k
    some (xs, .found r)
  | .size => some (xs, .size xs.length)

/-- A history of steps: the contents at the end and everything that was seen. -/
def krun {ω β : Type} (step : List (κ × μ) → ω → Option (List (κ × μ) × β)) : List (κ × μ) → List ω → Option (List (κ × μ) × List β)
  | xs, [] => some (xs, [])
  | xs, op :: ops => do
    let (ys, o) ← step xs op
    let (zs, os) ← krun step ys ops
    some (zs, o :: os)

/-- What is done with a multimap by key. -/
inductive MOp (κ μ : Type)
  | insert (key : κ) (mapped : μ)
  | erase (key : κ)
  | range (key : κ)
  | size

/-- What is seen of it. -/
inductive MObs (μ : Type)
  | inserted
  | erased (n : Nat)
  | found (vs : List μ)
  | size (n : Nat)
deriving DecidableEq

/-- A step with a sorted multimap. -/
def Cfg.mstep (C : Cfg κ μ) (xs : List (κ × μ)) : MOp κ μ → Option (List (κ × μ) × MObs μ)
  | .insert k v => do
    let (ys, _) ← C.lazyInsertMulti xs k v
    some (ys, .inserted)
  | .erase k => do
    let (ys, n) ← C.multiAssoc.keyedErase xs k
    some (ys, .erased n)
  | .range k => do
    let (first, last) ← C.keyedEqualRange xs k
    some (xs, .found (((xs.take last).drop first).map (·.2)))
  | .size => some (xs, .size xs.length)

/-! ## Specification -/

/-- A mathematical map: what every key is mapped to, and the number of elements. -/
structure AMap (κ μ : Type) where
  get : κ → Option μ
  size : Nat

/-- What the operations do to a mathematical map whose keys are identified by `same`, and what is seen of it. -/
def AMap.step (same : κ → κ → Bool) (T : AMap κ μ) : KOp κ μ → AMap κ μ × KObs μ
  | .insert k v =>
    match T.get k with
    | some _ => (T, .inserted false)
    | none => (⟨fun k' => if same k k' then some v else T.get k', T.size + 1⟩, .inserted true)
  | .erase k =>
    match T.get k with
    | some _ => (⟨fun k' => if same k k' then none else T.get k', T.size - 1⟩, .erased 1)
    | none => (T, .erased 0)
  | .lookup k => (T, .found (T.get k))
  | .size => (T, .size T.size)

/-- A history, with everything that is observed. -/
def AMap.run (same : κ → κ → Bool) : AMap κ μ → List (KOp κ μ) → AMap κ μ × List (KObs μ)
  | T, [] => (T, [])
  | T, op :: ops =>
    let (T1, o) := T.step same op
    let (T2, os) := T1.run same ops
    (T2, o :: os)

/-- There is room for every element that is inserted. -/
def AMap.Room (same : κ → κ → Bool) (mx : Nat) : AMap κ μ → List (KOp κ μ) → Prop
  | _, [] => True
  | T, op :: ops => (∀ k v, op = .insert k v → T.size < mx) ∧ AMap.Room same mx (T.step same op).1 ops

/-- A map with no elements. -/
def AMap.empty : AMap κ μ := ⟨fun _ => none, 0⟩

/-- A mathematical multimap: for every key, the values in the order in which they were inserted. -/
structure AMulti (κ μ : Type) where
  get : κ → List μ
  size : Nat

/-- What an operation of a multimap means, and what is observed. -/
def AMulti.step (same : κ → κ → Bool) (T : AMulti κ μ) : MOp κ μ → AMulti κ μ × MObs μ
  | .insert k v => (⟨fun k' => if same k k' then T.get k' ++ [v] else T.get k', T.size + 1⟩, .inserted)
  | .erase k => (⟨fun k' => if same k k' then [] else T.get k', T.size - (T.get k).length⟩, .erased (T.get k).length)
  | .range k => (T, .found (T.get k))
  | .size => (T, .size T.size)

/-- A history, with everything that is observed. -/
def AMulti.run (same : κ → κ → Bool) : AMulti κ μ → List (MOp κ μ) → AMulti κ μ × List (MObs μ)
  | T, [] => (T, [])
  | T, op :: ops =>
    let (T1, o) := T.step same op
    let (T2, os) := T1.run same ops
    (T2, o :: os)

/-- There is room for each element that is inserted. -/
def AMulti.Room (same : κ → κ → Bool) (mx : Nat) : AMulti κ μ → List (MOp κ μ) → Prop
  | _, [] => True
  | T, op :: ops => (∀ k v, op = .insert k v → T.size < mx) ∧ AMulti.Room same mx (T.step same op).1 ops

/-- No elements. -/
def AMulti.empty : AMulti κ μ := ⟨fun _ => [], 0⟩

/-- The keys are the same for a sorted map. -/
def Cfg.same (C : Cfg κ μ) (a b : κ) : Bool := !C.lt a b && !C.lt b a

/-! ## Proofs -/

theorem Cfg.sameKey_iff {C : Cfg κ μ} {a b : κ} : C.same a b = true ↔ C.Same a b := by
  simp [Cfg.same, Cfg.Same]

theorem Cfg.same_equiv {C : Cfg κ μ} (h : StrictWeak C.lt) : Equivalence' C.same where
  refl a := by simp [Cfg.same, h.irrefl]
  symm a b hab := by
    rw [Cfg.sameKey_iff] at *
    exact ⟨hab.2, hab.1⟩
  trans a b c hab hbc := by
    rw [Cfg.sameKey_iff] at *
    exact ⟨h.negTrans hbc.1 hab.1, h.negTrans hab.2 hbc.2⟩

/-- The contents are those of the mathematical map. -/
structure Reps (same : κ → κ → Bool) (T : AMap κ μ) (xs : List (κ × μ)) : Prop where
  unique : xs.Pairwise fun x y => same x.1 y.1 = false
  get : ∀ k v, T.get k = some v ↔ ∃ e ∈ xs, same e.1 k = true ∧ e.2 = v
  size : T.size = xs.length

theorem Reps.none_iff {same : κ → κ → Bool} {T : AMap κ μ} {xs : List (κ × μ)} (h : Reps same T xs) (k : κ) :
    T.get k = none ↔ ∀ e ∈ xs, same e.1 k = false := by
  constructor
  · intro hn e he
    by_contra hc
    rw [Bool.not_eq_false] at hc
    have := (h.get k e.2).2 ⟨e, he, hc, rfl⟩
    rw [hn] at this; cases this
  · intro ha
    cases hg : T.get k with
    | none => rfl
    | some v =>
      obtain ⟨e, he, hs, -⟩ := (h.get k v).1 hg
      rw [ha e he] at hs; cases hs

/-- What a member function `find` gives. -/
def Finds (same : κ → κ → Bool) (xs : List (κ × μ)) (k : κ) (i : Nat) : Prop :=
  (∃ e, xs[i]? = some e ∧ same e.1 k = true) ∨ (i = xs.length ∧ ∀ e ∈ xs, same e.1 k = false)

theorem Reps.insert {same : κ → κ → Bool} (hq : Equivalence' same) {T : AMap κ μ} {xs ys : List (κ × μ)} (h : Reps same T xs) {k : κ} {v : μ} (hn : T.get k = none)
    (hp : ys.Perm ((k, v) :: xs)) : Reps same (T.step same (.insert k v)).1 ys := by
  have hno := (h.none_iff k).1 hn
  have hsym : ∀ {a b : κ}, same a b = false → same b a = false := fun {a b} hab => by
    by_contra hc
    rw [Bool.not_eq_false] at hc
    rw [hq.symm _ _ hc] at hab; cases hab
  refine ⟨?_, fun k' v' => ?_, ?_⟩
  · refine (hp.pairwise_iff fun {x y} hxy => hsym hxy).2 (List.pairwise_cons.2 ⟨fun y hy => hsym (hno y hy), h.unique⟩)
  · simp only [AMap.step, hn]
    by_cases hs : same k k' = true
    · rw [if_pos hs]
      constructor
      · intro hv; cases hv
        exact ⟨(k, v), hp.mem_iff.2 List.mem_cons_self, hs, rfl⟩
      · rintro ⟨e, he, hs', rfl⟩
        rcases List.mem_cons.1 (hp.mem_iff.1 he) with rfl | hm
        · rfl
        · have := hno e hm
          rw [hq.trans _ _ _ hs' (hq.symm _ _ hs)] at this; cases this
    · rw [if_neg hs, h.get]
      constructor
      · rintro ⟨e, he, hs', rfl⟩
        exact ⟨e, hp.mem_iff.2 (List.mem_cons_of_mem _ he), hs', rfl⟩
      · rintro ⟨e, he, hs', rfl⟩
        rcases List.mem_cons.1 (hp.mem_iff.1 he) with rfl | hm
        · exact absurd hs' hs
        · exact ⟨e, hm, hs', rfl⟩
  · simp only [AMap.step, hn, hp.length_eq, List.length_cons, h.size]

theorem Reps.keyedErase {same : κ → κ → Bool} (hq : Equivalence' same) {T : AMap κ μ} {xs : List (κ × μ)} (h : Reps same T xs) {k : κ} {A : Assoc κ μ}
    {find : List (κ × μ) → κ → Option Nat} (hA : A.find = some find) {i : Nat} (hi : find xs k = some i) (hf : Finds same xs k i) :
    ∃ ys n, A.keyedErase xs k = some (ys, n) ∧ Reps same (T.step same (.erase k)).1 ys ∧ (T.step same (.erase k)).2 = .erased n := by
  rw [Assoc.keyedErase, hA]
  simp only [hi, Option.bind_eq_bind, Option.bind_some]
  rcases hf with ⟨e, he, hs⟩ | ⟨rfl, hno⟩
  · obtain ⟨hil, rfl⟩ := List.getElem?_eq_some_iff.1 he
    have hg : T.get k = some xs[i].2 := (h.get k _).2 ⟨_, List.getElem_mem hil, hs, rfl⟩
    have hp : xs.Perm (xs[i] :: xs.eraseIdx i) := (List.getElem_cons_eraseIdx_perm hil).symm
    have hsym : ∀ {a b : κ}, same a b = false → same b a = false := fun {a b} hab => by
      by_contra hc
      rw [Bool.not_eq_false] at hc
      rw [hq.symm _ _ hc] at hab; cases hab
    have hpw := (hp.pairwise_iff fun {x y} hxy => hsym hxy).1 h.unique
    obtain ⟨hhead, htail⟩ := List.pairwise_cons.1 hpw
    rw [if_neg (by omega), eraseAt, if_pos hil]
    refine ⟨_, _, rfl, ⟨htail, fun k' v' => ?_, ?_⟩, by simp only [AMap.step, hg]⟩
    · simp only [AMap.step, hg]
      by_cases hs' : same k k' = true
      · rw [if_pos hs']
        refine ⟨fun hc => (Option.some_ne_none _ hc.symm).elim, ?_⟩
        rintro ⟨e, he, hs2, -⟩
        have := hhead e he
        rw [hq.trans _ _ _ hs (hq.trans _ _ _ hs' (hq.symm _ _ hs2))] at this; cases this
      · rw [if_neg hs', h.get]
        constructor
        · rintro ⟨e, he, hs2, rfl⟩
          rcases List.mem_cons.1 (hp.mem_iff.1 he) with rfl | hm
          · exact absurd (hq.trans _ _ _ (hq.symm _ _ hs) hs2) hs'
          · exact ⟨e, hm, hs2, rfl⟩
        · rintro ⟨e, he, hs2, rfl⟩
          exact ⟨e, hp.mem_iff.2 (List.mem_cons_of_mem _ he), hs2, rfl⟩
    · simp only [AMap.step, hg, h.size, List.length_eraseIdx_of_lt hil]
  · have hg := (h.none_iff k).2 hno
    rw [if_pos rfl]
    exact ⟨_, _, rfl, by simpa only [AMap.step, hg] using h, by simp only [AMap.step, hg]⟩

theorem Cfg.finds {C : Cfg κ μ} (h : StrictWeak C.lt) {xs : List (κ × μ)} (hs : xs.Pairwise fun x y => C.lt x.1 y.1 = true) (k : κ) :
    ∃ i, C.find xs k = some i ∧ Finds C.same xs k i := by
  obtain ⟨i, e, hi⟩ := C33_find h (S := (· ∈ xs)) ⟨hs, fun _ => Iff.rfl⟩ k
  refine ⟨i, e, ?_⟩
  rcases hi with ⟨x, hx, -, hsame⟩ | ⟨rfl, hno⟩
  · exact .inl ⟨x, hx, Cfg.sameKey_iff.2 hsame⟩
  · refine .inr ⟨rfl, fun x hx => ?_⟩
    by_contra hc
    rw [Bool.not_eq_false] at hc
    exact hno x hx (Cfg.sameKey_iff.1 hc)

theorem Lin.finds {L : Lin κ} (h : Equivalence' L.eq) (xs : List (κ × μ)) (k : κ) : ∃ i, L.find xs k = some i ∧ Finds L.eq xs k i := by
  obtain ⟨i, e, hle, h1, h2⟩ := C35_find h xs k
  refine ⟨i, e, ?_⟩
  by_cases hi : i = xs.length
  · exact .inr ⟨hi, h2 hi⟩
  · have hi : i < xs.length := by omega
    exact .inl ⟨_, List.getElem?_eq_getElem hi, h1 hi⟩

/-- A sorted map holds the mathematical map. -/
structure Cfg.KRep (C : Cfg κ μ) (T : AMap κ μ) (xs : List (κ × μ)) : Prop where
  increasing : xs.Pairwise fun x y => C.lt x.1 y.1 = true
  reps : Reps C.same T xs

theorem found_eq {same : κ → κ → Bool} {T : AMap κ μ} {xs : List (κ × μ)} (h : Reps same T xs) {k : κ} {r : Option μ}
    (hr : ∀ v, r = some v ↔ ∃ e ∈ xs, same e.1 k = true ∧ e.2 = v) : r = T.get k :=
  Option.ext fun v => by rw [hr, h.get]

theorem Cfg.kstep_spec {C : Cfg κ μ} (h : StrictWeak C.lt) {T : AMap κ μ} {xs : List (κ × μ)} (hr : C.KRep T xs) (op : KOp κ μ)
    (hroom : ∀ k v, op = .insert k v → T.size < C.mx ∨ T.get k ≠ none) :
    ∃ ys, C.kstep xs op = some (ys, (T.step C.same op).2) ∧ C.KRep (T.step C.same op).1 ys := by
  have hq := C.same_equiv h
  have hl : C.Lists (· ∈ xs) xs := ⟨hr.increasing, fun _ => Iff.rfl⟩
  cases op with
  | insert k v =>
    have hroom' : xs.length < C.mx ∨ ∃ e, e ∈ xs ∧ C.Same e.1 k := by
      rcases hroom k v rfl with hlt | hex
      · exact .inl (hr.reps.size ▸ hlt)
      · obtain ⟨v', hv'⟩ := Option.ne_none_iff_exists'.1 hex
        obtain ⟨e, he, hs, -⟩ := (hr.reps.get k v').1 hv'
        exact .inr ⟨e, he, Cfg.sameKey_iff.1 hs⟩
    obtain ⟨ys, i, b, S', e, hl', hspec, -, -, hb⟩ := C33_insert h hl k v hroom'
    refine ⟨ys, ?_, hl'.increasing, ?_⟩
    · simp only [Cfg.kstep, e, Option.bind_eq_bind, Option.bind_some, AMap.step]
      cases hg : T.get k with
      | none =>
        have : b = true := hb.2 fun x hx hsame => by
          have := (hr.reps.none_iff k).1 hg x hx
          rw [Cfg.sameKey_iff.2 hsame] at this; cases this
        simp [this]
      | some v' =>
        have : b ≠ true := fun hbt => by
          obtain ⟨x, hx, hs, -⟩ := (hr.reps.get k v').1 hg
          exact hb.1 hbt x hx (Cfg.sameKey_iff.1 hs)
        simp only [Bool.not_eq_true] at this
        simp [this]
    · have hnd : ∀ {zs : List (κ × μ)}, (zs.Pairwise fun x y => C.lt x.1 y.1 = true) → zs.Nodup := fun hz =>
        hz.imp fun {x y} hxy hc => by rw [hc, h.irrefl] at hxy; cases hxy
      cases hg : T.get k with
      | none =>
        refine hr.reps.insert hq hg ((List.perm_ext_iff_of_nodup (hnd hl'.increasing) ?_).2 fun e => ?_)
        · refine List.nodup_cons.2 ⟨fun hm => ?_, hnd hr.increasing⟩
          have := (hr.reps.none_iff k).1 hg _ hm
          rw [hq.refl] at this; cases this
        · rw [hl'.mem, hspec, List.mem_cons]
          constructor
          · rintro (hm | ⟨rfl, -⟩)
            · exact .inr hm
            · exact .inl rfl
          · rintro (rfl | hm)
            · refine .inr ⟨rfl, fun x hx hsame => ?_⟩
              have := (hr.reps.none_iff _).1 hg x hx
              rw [Cfg.sameKey_iff.2 hsame] at this; cases this
            · exact .inl hm
      | some v' =>
        have hy : ys.Perm xs := (List.perm_ext_iff_of_nodup (hnd hl'.increasing) (hnd hr.increasing)).2 fun e => by
          rw [hl'.mem, hspec]
          refine ⟨?_, .inl⟩
          rintro (hm | ⟨rfl, hno⟩)
          · exact hm
          · obtain ⟨x, hx, hs, -⟩ := (hr.reps.get k v').1 hg
            exact (hno x hx (Cfg.sameKey_iff.1 hs)).elim
        have hsym : ∀ {x y : κ × μ}, C.same x.1 y.1 = false → C.same y.1 x.1 = false := fun {x y} hxy => by
          rw [← hxy]; simp [Cfg.same, Bool.and_comm]
        simp only [AMap.step, hg]
        exact ⟨(hy.pairwise_iff hsym).2 hr.reps.unique, fun k' v => by rw [hr.reps.get]; simp only [hy.mem_iff], by rw [hr.reps.size, hy.length_eq]⟩
  | erase k =>
    obtain ⟨i, hi, hf⟩ := C.finds h hr.increasing k
    obtain ⟨ys, n, e, h1, h2⟩ := hr.reps.keyedErase hq (A := C.assoc) rfl hi hf
    refine ⟨ys, ?_, ?_, h1⟩
    · rw [Cfg.kstep, e, h2]; rfl
    · rw [Assoc.keyedErase] at e
      simp only [Cfg.assoc, hi, Option.bind_eq_bind, Option.bind_some] at e
      split at e
      · cases e; exact hr.increasing
      · rw [eraseAt] at e
        split at e
        · simp only [Option.bind_some, Option.some.injEq, Prod.mk.injEq] at e
          rw [← e.1]
          exact hr.increasing.sublist (List.eraseIdx_sublist _ _)
        · cases e
  | lookup k =>
    obtain ⟨r, e, hv⟩ := C33_lookup h hl k
    refine ⟨xs, ?_, hr⟩
    have : r = T.get k := found_eq hr.reps fun v => by
      rw [hv]
      constructor
      · rintro ⟨k', hm, hs⟩; exact ⟨_, hm, Cfg.sameKey_iff.2 hs, rfl⟩
      · rintro ⟨e, hm, hs, rfl⟩; exact ⟨e.1, hm, Cfg.sameKey_iff.1 hs⟩
    rw [Cfg.kstep, e, this]; rfl
  | size => exact ⟨xs, by rw [Cfg.kstep, AMap.step, hr.reps.size], hr⟩

/-- **C71** for `flat_map`: whatever is done with a sorted map by key, it behaves as a function from keys to values. -/
theorem C71_flat_map {C : Cfg κ μ} (h : StrictWeak C.lt) : ∀ (ops : List (KOp κ μ)) {T : AMap κ μ} {xs : List (κ × μ)}, C.KRep T xs → T.Room C.same C.mx ops →
    ∃ ys, krun C.kstep xs ops = some (ys, (T.run C.same ops).2) ∧ C.KRep (T.run C.same ops).1 ys
  | [], _, xs, hr, _ => ⟨xs, rfl, hr⟩
  | op :: ops, T, xs, hr, hp => by
    obtain ⟨ys, e, h1⟩ := C.kstep_spec h hr op fun k v hop => .inl (hp.1 k v hop)
    obtain ⟨zs, e2, h2⟩ := C71_flat_map h ops h1 hp.2
    exact ⟨zs, by rw [krun, e]; simp only [Option.bind_eq_bind, Option.bind_some, e2]; rfl, h2⟩

theorem Lin.kstep_spec {L : Lin κ} (h : Equivalence' L.eq) {T : AMap κ μ} {xs : List (κ × μ)} (hr : Reps L.eq T xs) (op : KOp κ μ)
    (hroom : ∀ k v, op = .insert k v → T.size < L.mx) :
    ∃ ys, L.kstep xs op = some (ys, (T.step L.eq op).2) ∧ Reps L.eq (T.step L.eq op).1 ys := by
  cases op with
  | insert k v =>
    obtain ⟨ys, i, b, e, hspec, -, -, hb⟩ := C35_insert h hr.unique k v (hr.size ▸ hroom k v rfl)
    refine ⟨ys, ?_, ?_⟩
    · simp only [Lin.kstep, e, Option.bind_eq_bind, Option.bind_some, AMap.step]
      cases hg : T.get k with
      | none => simp [hb.2 ((hr.none_iff k).1 hg)]
      | some v' =>
        have : b ≠ true := fun hbt => by
          obtain ⟨x, hx, hs, -⟩ := (hr.get k v').1 hg
          rw [hb.1 hbt x hx] at hs; cases hs
        simp only [Bool.not_eq_true] at this
        simp [this]
    · cases hg : T.get k with
      | none =>
        rw [hspec.2 ((hr.none_iff k).1 hg)]
        exact hr.insert h hg List.perm_append_comm
      | some v' =>
        obtain ⟨x, hx, hs, -⟩ := (hr.get k v').1 hg
        rw [hspec.1 ⟨x, hx, hs⟩]
        simpa only [AMap.step, hg] using hr
  | erase k =>
    obtain ⟨i, hi, hf⟩ := L.finds h xs k
    obtain ⟨ys, n, e, h1, h2⟩ := hr.keyedErase h (A := L.assoc) rfl hi hf
    exact ⟨ys, by rw [Lin.kstep, e, h2]; rfl, h1⟩
  | lookup k =>
    refine ⟨xs, ?_, hr⟩
    obtain ⟨h1, h2⟩ := C35_lookup h (L := L) hr.unique k
    have : L.lookup xs k = some (T.get k) := by
      cases hg : T.get k with
      | none => exact h2 ((hr.none_iff k).1 hg)
      | some v =>
        obtain ⟨e, he, hs, rfl⟩ := (hr.get k v).1 hg
        exact h1 e he hs
    rw [Lin.kstep, this]; rfl
  | size => exact ⟨xs, by rw [Lin.kstep, AMap.step, hr.size], hr⟩

/-- **C71** for `linear_map`: whatever is done with an unsorted map by key, it behaves as a function from keys to values. -/
theorem C71_linear_map {L : Lin κ} (h : Equivalence' L.eq) : ∀ (ops : List (KOp κ μ)) {T : AMap κ μ} {xs : List (κ × μ)}, Reps L.eq T xs → T.Room L.eq L.mx ops →
    ∃ ys, krun L.kstep xs ops = some (ys, (T.run L.eq ops).2) ∧ Reps L.eq (T.run L.eq ops).1 ys
  | [], _, xs, hr, _ => ⟨xs, rfl, hr⟩
  | op :: ops, T, xs, hr, hp => by
    obtain ⟨ys, e, h1⟩ := L.kstep_spec h hr op hp.1
    obtain ⟨zs, e2, h2⟩ := C71_linear_map h ops h1 hp.2
    exact ⟨zs, by rw [krun, e]; simp only [Option.bind_eq_bind, Option.bind_some, e2]; rfl, h2⟩

theorem Reps.empty (same : κ → κ → Bool) : Reps same (AMap.empty : AMap κ μ) [] :=
  ⟨List.Pairwise.nil, fun _ _ => by simp [AMap.empty], rfl⟩

/-- **C71**: a sorted and an unsorted map that start empty cannot be told apart by what they return, if equality of keys is that of the order. -/
theorem C71_same_observations {C : Cfg κ μ} {L : Lin κ} (h : StrictWeak C.lt) (heq : L.eq = C.same) (hmx : L.mx = C.mx) (ops : List (KOp κ μ))
    (hroom : (AMap.empty : AMap κ μ).Room C.same C.mx ops) :
    ∃ os, (krun C.kstep [] ops).map (·.2) = some os ∧ (krun L.kstep [] ops).map (·.2) = some os ∧ os = ((AMap.empty : AMap κ μ).run C.same ops).2 := by
  obtain ⟨ys, e, -⟩ := C71_flat_map h ops (T := AMap.empty) ⟨List.Pairwise.nil, Reps.empty _⟩ hroom
  obtain ⟨zs, e2, -⟩ := C71_linear_map (L := L) (heq ▸ C.same_equiv h) ops (Reps.empty _) (by rw [heq, hmx]; exact hroom)
  refine ⟨_, by rw [e]; rfl, by rw [e2, heq]; rfl, rfl⟩

/-- **C71**: a map whose greatest size is at least the number of keys (`flat_map.cpp` 408-415 `maximum_map_size`) has room for every insertion. -/
theorem C71_room {C : Cfg κ μ} (h : StrictWeak C.lt) (keys : List κ) (hall : ∀ k, ∃ k' ∈ keys, C.Same k' k) (hmx : keys.length ≤ C.mx) :
    ∀ (ops : List (KOp κ μ)) {T : AMap κ μ} {xs : List (κ × μ)}, C.KRep T xs →
    ∃ ys, krun C.kstep xs ops = some (ys, (T.run C.same ops).2) ∧ C.KRep (T.run C.same ops).1 ys
  | [], _, xs, hr => ⟨xs, rfl, hr⟩
  | op :: ops, T, xs, hr => by
    have hq := C.same_equiv h
    obtain ⟨ys, e, h1⟩ := C.kstep_spec h hr op fun k v hop => by
      by_cases hg : T.get k = none
      · left
        have hno := (hr.reps.none_iff k).1 hg
        have hsym : ∀ {a b : κ}, C.same a b = false → C.same b a = false := fun {a b} hab => by
          rw [← hab]; simp [Cfg.same, Bool.and_comm]
        -- the keys of the map and the new key are distinct members of the list of keys
        have key : ∀ (zs : List κ) (ks : List κ), (zs.Pairwise fun x y => C.same x y = false) → (∀ z ∈ zs, ∃ k' ∈ ks, C.same k' z = true) → zs.length ≤ ks.length := by
          intro zs
          induction zs with
          | nil => intro ks _ _; exact Nat.zero_le _
          | cons z zs ih =>
            intro ks hpw hm
            obtain ⟨hz, hpw⟩ := List.pairwise_cons.1 hpw
            obtain ⟨k', hk', hs⟩ := hm z List.mem_cons_self
            obtain ⟨l, r, rfl⟩ := List.append_of_mem hk'
            have := ih (l ++ r) hpw fun w hw => by
              obtain ⟨k2, hk2, hs2⟩ := hm w (List.mem_cons_of_mem _ hw)
              have hne : k2 ≠ k' := fun hc => by
                subst hc
                have := hz w hw
                rw [hq.trans _ _ _ (hq.symm _ _ hs) hs2] at this; cases this
              refine ⟨k2, ?_, hs2⟩
              rcases List.mem_append.1 hk2 with hk2 | hk2
              · exact List.mem_append_left _ hk2
              · rcases List.mem_cons.1 hk2 with hc | hk2
                · exact absurd hc hne
                · exact List.mem_append_right _ hk2
            simp only [List.length_append, List.length_cons] at this ⊢
            omega
        have := key (k :: xs.map (·.1)) keys (List.pairwise_cons.2 ⟨fun y hy => by
            obtain ⟨e, he, rfl⟩ := List.mem_map.1 hy
            exact hsym (hno e he), (List.pairwise_map.2 hr.reps.unique)⟩) fun z _ => by
          obtain ⟨k', hk', hs⟩ := hall z
          exact ⟨k', hk', Cfg.sameKey_iff.2 hs⟩
        simp only [List.length_cons, List.length_map] at this
        rw [hr.reps.size]; omega
      · exact .inr hg
    obtain ⟨zs, e2, h2⟩ := C71_room h keys hall hmx ops h1
    exact ⟨zs, by rw [krun, e]; simp only [Option.bind_eq_bind, Option.bind_some, e2]; rfl, h2⟩

/-- **C71**: inserting an rvalue moves from it exactly if it is inserted, and then the element has its value. -/
theorem C71_rvalue {C : Cfg κ μ} (h : StrictWeak C.lt) {xs : List (κ × μ)} (hs : xs.Pairwise fun x y => C.lt x.1 y.1 = true) (k : κ) (v : μ)
    (hroom : xs.length < C.mx ∨ ∃ e ∈ xs, C.Same e.1 k) :
    ∃ ys i b, C.lazyInsert xs k v = some (ys, i, b) ∧ C.keyedInsertMove xs ⟨k, v, false, false⟩ = some (ys, i, b, ⟨k, v, b, b⟩) ∧
      (b = true ↔ ∀ e ∈ xs, ¬ C.Same e.1 k) := by
  obtain ⟨ys, i, b, -, e, -, -, -, -, hb⟩ := C33_insert h (S := (· ∈ xs)) ⟨hs, fun _ => Iff.rfl⟩ k v hroom
  refine ⟨ys, i, b, e, ?_, hb⟩
  rw [Cfg.lazyInsert] at e
  rw [Cfg.keyedInsertMove]
  simp only [Option.bind_eq_bind] at *
  revert e
  cases C.keyedUpperBound xs k with
  | none => intro e; cases e
  | some p =>
    simp only [Option.bind_some, Given.take, Bool.or_self, Bool.false_eq_true, if_false]
    cases C.insertAt xs p (k, v) with
    | none =>
      simp only [Option.bind_none]
      split
      · intro e; cases e
      · cases xs[p - 1]? with
        | none => intro e; cases e
        | some y =>
          simp only [Option.bind_some]
          split
          · intro e; cases e
          · intro e; cases e; rfl
    | some zs =>
      simp only [Option.bind_some]
      split
      · intro e; cases e; rfl
      · cases xs[p - 1]? with
        | none => intro e; cases e
        | some y =>
          simp only [Option.bind_some]
          split
          · intro e; cases e; rfl
          · intro e; cases e; rfl

/-! ### Multimaps -/

/-- A sorted multimap holds the mathematical multimap. -/
structure Cfg.MRep (C : Cfg κ μ) (T : AMulti κ μ) (xs : List (κ × μ)) : Prop where
  sorted : Sorted C.elt xs
  get : ∀ k, T.get k = (xs.filter fun e => C.same k e.1).map (·.2)
  size : T.size = xs.length

theorem between_eq_filter {p : κ × μ → Bool} {xs : List (κ × μ)} {lo hi : Nat} (hlh : lo ≤ hi) (hh : hi ≤ xs.length)
    (hp : ∀ i (h : i < xs.length), lo ≤ i ∧ i < hi ↔ p xs[i] = true) :
    (xs.take hi).drop lo = xs.filter p ∧ xs.take lo ++ xs.drop hi = xs.filter fun e => !p e := by
  have hsplit : xs = xs.take lo ++ ((xs.take hi).drop lo ++ xs.drop hi) := by
    have h1 : xs.take lo = (xs.take hi).take lo := by rw [List.take_take, Nat.min_eq_left hlh]
    rw [h1, ← List.append_assoc, List.take_append_drop, List.take_append_drop]
  have h1 : ∀ e ∈ xs.take lo, p e = false := fun e he => by
    obtain ⟨i, hi', rfl⟩ := List.mem_iff_getElem.1 he
    rw [List.length_take] at hi'
    rw [List.getElem_take]
    have := mt (hp i (by omega)).2 (by omega)
    simpa using this
  have h2 : ∀ e ∈ (xs.take hi).drop lo, p e = true := fun e he => by
    obtain ⟨i, hi', rfl⟩ := List.mem_iff_getElem.1 he
    rw [List.length_drop, List.length_take] at hi'
    rw [List.getElem_drop, List.getElem_take]
    exact (hp (lo + i) (by omega)).1 (by omega)
  have h3 : ∀ e ∈ xs.drop hi, p e = false := fun e he => by
    obtain ⟨i, hi', rfl⟩ := List.mem_iff_getElem.1 he
    rw [List.length_drop] at hi'
    rw [List.getElem_drop]
    have := mt (hp (hi + i) (by omega)).2 (by omega)
    simpa using this
  constructor
  · conv => rhs; rw [hsplit]
    rw [List.filter_append, List.filter_append, List.filter_eq_self.2 h2, List.filter_eq_nil_iff.2 fun e he => by rw [h1 e he]; simp,
      List.filter_eq_nil_iff.2 fun e he => by rw [h3 e he]; simp]
    simp
  · conv => rhs; rw [hsplit]
    rw [List.filter_append, List.filter_append, List.filter_eq_self.2 fun e he => by rw [h1 e he]; rfl, List.filter_eq_nil_iff.2 fun e he => by rw [h2 e he]; simp,
      List.filter_eq_self.2 fun e he => by rw [h3 e he]; rfl]
    simp

theorem Cfg.mstep_spec {C : Cfg κ μ} (h : StrictWeak C.lt) {T : AMulti κ μ} {xs : List (κ × μ)} (hr : C.MRep T xs) (op : MOp κ μ)
    (hroom : ∀ k v, op = .insert k v → T.size < C.mx) :
    ∃ ys, C.mstep xs op = some (ys, (T.step C.same op).2) ∧ C.MRep (T.step C.same op).1 ys := by
  have hq := C.same_equiv h
  have heq : ∀ k, ∃ lo hi, C.keyedEqualRange xs k = some (lo, hi) ∧ lo ≤ hi ∧ hi ≤ xs.length ∧ (xs.take hi).drop lo = (xs.filter fun e => C.same k e.1) ∧
      xs.take lo ++ xs.drop hi = xs.filter fun e => !C.same k e.1 := fun k => by
    obtain ⟨lo, hi, e, hlh, hh, hi'⟩ := C34_equal_range h hr.sorted k
    obtain ⟨h1, h2⟩ := between_eq_filter (p := fun e => C.same k e.1) hlh hh fun i hil => by
      rw [hi' i hil, ← Cfg.sameKey_iff]
      exact ⟨hq.symm _ _, hq.symm _ _⟩
    exact ⟨lo, hi, e, hlh, hh, h1, h2⟩
  cases op with
  | insert k v =>
    obtain ⟨ys, i, e, st, -⟩ := C34_insert h hr.sorted k v (hr.size ▸ hroom k v rfl)
    refine ⟨ys, by rw [Cfg.mstep, e]; rfl, st.sorted, fun k' => ?_, by simp [AMulti.step, hr.size, st.perm.length_eq]⟩
    have hst : ys.filter (fun e => C.same k' e.1) = (xs ++ [(k, v)]).filter fun e => C.same k' e.1 := st.stable (k', v)
    simp only [AMulti.step]
    rw [hst, List.filter_append, List.map_append, ← hr.get]
    by_cases hs : C.same k k' = true
    · rw [if_pos hs]
      simp [hq.symm _ _ hs]
    · rw [if_neg hs]
      have : C.same k' k ≠ true := fun hc => hs (hq.symm _ _ hc)
      simp [this]
  | erase k =>
    obtain ⟨lo, hi, e, hlh, hh, h1, h2⟩ := heq k
    have hlen : (T.get k).length = hi - lo := by
      rw [hr.get, List.length_map, ← h1, List.length_drop, List.length_take]; omega
    refine ⟨xs.filter fun e => !C.same k e.1, ?_, hr.sorted.sublist List.filter_sublist, fun k' => ?_, ?_⟩
    · rw [Cfg.mstep, Assoc.keyedErase]
      simp only [Cfg.multiAssoc, e, Option.bind_eq_bind, Option.bind_some, eraseBetween, AMulti.step, hlen]
      rw [if_pos ⟨hlh, hh⟩, h2]; rfl
    · simp only [AMulti.step, List.filter_filter]
      by_cases hs : C.same k k' = true
      · rw [if_pos hs, List.filter_eq_nil_iff.2 fun e _ => ?_]; rfl
        intro hc
        simp only [Bool.and_eq_true, Bool.not_eq_true'] at hc
        have := hq.trans _ _ _ hs hc.1
        rw [hc.2] at this; cases this
      · rw [if_neg hs, hr.get]
        congr 1
        refine List.filter_congr fun e _ => ?_
        cases h' : C.same k' e.1 with
        | false => rfl
        | true =>
          have : C.same k e.1 ≠ true := fun hc => hs (hq.trans _ _ _ hc (hq.symm _ _ h'))
          simp only [Bool.not_eq_true] at this
          simp [this]
    · simp only [AMulti.step, hlen]
      rw [hr.size, ← h2, List.length_append, List.length_take, List.length_drop]; omega
  | range k =>
    obtain ⟨lo, hi, e, hlh, hh, h1, h2⟩ := heq k
    refine ⟨xs, ?_, hr⟩
    simp only [Cfg.mstep, e, Option.bind_eq_bind, Option.bind_some, AMulti.step, h1, hr.get]
  | size => exact ⟨xs, by rw [Cfg.mstep, AMulti.step, hr.size], hr⟩

/-- **C71** for `flat_multimap`: whatever is done with it by key, it behaves as a function from keys to lists of values; erasing a key removes all its values and tells how many. -/
theorem C71_flat_multimap {C : Cfg κ μ} (h : StrictWeak C.lt) : ∀ (ops : List (MOp κ μ)) {T : AMulti κ μ} {xs : List (κ × μ)}, C.MRep T xs → T.Room C.same C.mx ops →
    ∃ ys, krun C.mstep xs ops = some (ys, (T.run C.same ops).2) ∧ C.MRep (T.run C.same ops).1 ys
  | [], _, xs, hr, _ => ⟨xs, rfl, hr⟩
  | op :: ops, T, xs, hr, hp => by
    obtain ⟨ys, e, h1⟩ := C.mstep_spec h hr op hp.1
    obtain ⟨zs, e2, h2⟩ := C71_flat_multimap h ops h1 hp.2
    exact ⟨zs, by rw [krun, e]; simp only [Option.bind_eq_bind, Option.bind_some, e2]; rfl, h2⟩

/-! ### Where it fails -/

/-- **C71** fails for multimaps of the standard library: they have a member function `find`, so that `keyed_erase` removes one element only, whatever the number of elements with the
key and whichever of them `find` returns. -/
theorem C71_std_multimap_violated {same : κ → κ → Bool} {find : List (κ × μ) → κ → Option Nat} (hfind : ∀ xs k, ∃ i, find xs k = some i ∧ Finds same xs k i)
    (xs : List (κ × μ)) (k : κ) (htwo : 2 ≤ (xs.filter fun e => same e.1 k).length) :
    ∃ ys, (stdAssoc find).keyedErase xs k = some (ys, 1) ∧ ∃ e ∈ ys, same e.1 k = true := by
  obtain ⟨i, hi, hf⟩ := hfind xs k
  rw [Assoc.keyedErase]
  simp only [stdAssoc, hi, Option.bind_eq_bind, Option.bind_some]
  rcases hf with ⟨e, he, hs⟩ | ⟨rfl, hno⟩
  · obtain ⟨hil, rfl⟩ := List.getElem?_eq_some_iff.1 he
    rw [if_neg (by omega), eraseAt, if_pos hil]
    refine ⟨_, rfl, ?_⟩
    have hp : xs.Perm (xs[i] :: xs.eraseIdx i) := (List.getElem_cons_eraseIdx_perm hil).symm
    have hl := (hp.filter fun e => same e.1 k).length_eq
    rw [List.filter_cons, if_pos hs, List.length_cons] at hl
    obtain ⟨x, hx⟩ := List.exists_mem_of_length_pos (l := (xs.eraseIdx i).filter fun e => same e.1 k) (by omega)
    exact ⟨x, (List.mem_filter.1 hx).1, (List.mem_filter.1 hx).2⟩
  · rw [List.filter_eq_nil_iff.2 fun e he => by rw [hno e he]; simp] at htwo
    simp at htwo

/-! ## Examples -/

/-- The hypotheses of `C71_flat_map` and `C71_same_observations` can be met. -/
example : StrictWeak (exMulti 100).lt ∧ (AMap.empty : AMap Nat Nat).Room (exMulti 100).same 100 [.insert 3 1, .erase 3, .lookup 3] :=
  ⟨(exCfg_ok exStd_sorts 100 .clear).order, by simp [AMap.Room, AMap.empty]⟩

example : krun (exMulti 100).kstep [] [.insert 3 1, .insert 3 2, .lookup 3, .erase 3, .erase 3, .size] =
    some ([], [.inserted true, .inserted false, .found (some 1), .erased 1, .erased 0, .size 0]) := by decide +kernel

example : krun (exMulti 100).mstep [] [.insert 3 1, .insert 2 7, .insert 3 2, .range 3, .erase 3, .size] =
    some ([(2, 7)], [.inserted, .inserted, .inserted, .found [1, 2], .erased 2, .size 1]) := by decide +kernel

/-- The hypotheses of `C71_room` can be met: a map whose keys are truth values. -/
example : ∃ C : Cfg Bool Nat, StrictWeak C.lt ∧ (∀ k, ∃ k' ∈ [false, true], C.Same k' k) ∧ [false, true].length ≤ C.mx :=
  ⟨{ lt := fun a b => !a && b, eq := (· == ·), desc := .bool (·.1), std := fun _ _ _ => none, merge := fun _ _ _ _ => none, mv := .clear, mx := 2 },
    ⟨by decide, by decide⟩, fun k => ⟨k, by cases k <;> decide, by cases k <;> decide, by cases k <;> decide⟩, by decide⟩

/-- The hypotheses of `C71_rvalue` can be met, and both outcomes occur. -/
example : (exMulti 2).keyedInsertMove [(3, 1)] ⟨3, 2, false, false⟩ = some ([(3, 1)], 0, false, ⟨3, 2, false, false⟩) ∧
    (exMulti 2).keyedInsertMove [(3, 1)] ⟨4, 2, false, false⟩ = some ([(3, 1), (4, 2)], 1, true, ⟨4, 2, true, true⟩) := by decide +kernel

/-- The hypotheses of `C71_std_multimap_violated` can be met. -/
example : (∀ (xs : List (Nat × Nat)) k, ∃ i, some (xs.findIdx fun e => e.1 == k) = some i ∧ Finds (fun a b => a == b) xs k i) ∧
    2 ≤ ([((3 : Nat), (1 : Nat)), (3, 2)].filter fun e => e.1 == 3).length := by
  refine ⟨fun xs k => ⟨_, rfl, ?_⟩, by decide⟩
  by_cases hi : (xs.findIdx fun e => e.1 == k) < xs.length
  · exact .inl ⟨_, List.getElem?_eq_getElem hi, List.findIdx_getElem (p := fun e : Nat × Nat => e.1 == k) (w := hi)⟩
  · have := List.findIdx_le_length (p := fun e : Nat × Nat => e.1 == k) (xs := xs)
    exact .inr ⟨Nat.le_antisymm this (Nat.le_of_not_lt hi), fun e he => by simpa using List.findIdx_eq_length.1 (Nat.le_antisymm this (Nat.le_of_not_lt hi)) e he⟩

end Verif.Maps
