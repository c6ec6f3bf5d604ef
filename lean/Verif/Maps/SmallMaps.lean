import Verif.Maps.ManyMaps
import Verif.Containers.ManySmall

/-!
# Programs with several static or small-buffer maps and iterators of them (C112)

As in C111, but the elements may be inside of the map object: `static_flat_map`, `static_flat_multimap`, `static_linear_map` (`flat_map.cpp` 420-427, `linear_map.cpp` 223-224),
and maps on `sbo_vector`.
-/

namespace Verif.Maps.Small

open Verif Verif.Algo Verif.Algo.Mem Verif.Maps
open Verif.Containers (Impl Lawful Heap GOp Item SV Frame CS AS Ans items WOp Sys Sbo Stat BBin BCtor BFrom SBin SCtor SFrom sinv ssys bsys)
open Verif.Containers.Several (CState AState sboKind statKind inward outward outcome sbo_laws stat_laws)
open Verif.Maps.Several (Reply constructOn constructOn_spec items_val)

variable {κ μ O A B C X R : Type}

/-! ## Model -/

/-- What a program can do. `i`, `j` name maps; `x`, `y`, `z` are variables with iterators. `B`, `C`, `X` are the assignments and constructors of the container. -/
inductive Step (κ μ B C X : Type) where
  /-- something with map `i` that does not change its keys (C106) -/
  | look (i : Nat) (l : MLook κ μ)
  /-- a function of map `i` (C106), what it returns goes to `y` -/
  | call (i : Nat) (m : MCall κ μ) (y : Nat)
  /-- `m_i.insert(subrange(y, z))` with iterators of another map; `thr k` says that copying the `k`-th element throws -/
  | insertFrom (i y z : Nat) (thr : Nat → Bool) (left : κ × μ) (al : Nat → Bool)
  /-- `*x` -/
  | peek (x : Nat)
  /-- `x->mapped = v` -/
  | poke (x : Nat) (v : μ)
  /-- `m_i == m_j` -/
  | equal (i j : Nat)
  /-- default construction, and construction from a range that is in order (`assume_sorted_unique`) -/
  | make (i : Nat) (k : C)
  /-- construction from a range -/
  | makeRange (i : Nat) (k : C) (left : κ × μ)
  /-- copy or move construction of `i` from `j` -/
  | makeFrom (i j : Nat) (f : X)
  /-- `m_i = m_j` or `m_i = std::move(m_j)` -/
  | assign (i j : Nat) (b : B)
  | drop (i : Nat)

/-- A program. -/
inductive Prog (κ μ B C X R : Type) where
  | ret (r : R)
  | step (s : Step κ μ B C X) (k : Reply κ μ → Prog κ μ B C X R)

/-- A function of one map, in a program with several. -/
def callOn (F : Containers.Several.Kind (κ × μ) O A B C X) (K : Nat → Kind κ μ) (c : CState (κ × μ) O) (i : Nat) (m : MCall κ μ) (y : Nat) : Option (Reply κ μ × CState (κ × μ) O) :=
  match c.obj i with
  | none => none
  | some o =>
    match land ⟨c.h, o, inward i c.its⟩ y (m.run F.I F.mn (K i) ⟨c.h, o, inward i c.its⟩) with
    | none => none
    | some (x, c') => some (.did x, ⟨c'.h, upd c.obj i (some c'.o), outward i c.its c'.its⟩)

/-- The elements of map `i`, as iteration reads them. -/
def elemsOn (I : Impl (κ × μ) O) (c : CState (κ × μ) O) (i : Nat) : Option (List (κ × μ)) :=
  match c.obj i with
  | none => none
  | some o => Containers.readFrom (I.mem c.h o).1 (I.mem c.h o).2 0 (I.size o)

/-- One step: `flat_map.cpp` 104-346, `linear_map.cpp` 42-202, `compare_container.cpp` 37-40, `static_vector.cpp` 48-98, `sbo_vector.cpp` 180-226; assignment, copy and move
of a map are those of its container (`flat_map.cpp` 285-286 and `linear_map.cpp` 200-201 are the only data members; the functions are implicit). `K i` says what kind of map `i` is.
Sorting and removing duplicates in a constructor do not throw. -/
def Step.run [DecidableEq κ] [DecidableEq μ] (F : Containers.Several.Kind (κ × μ) O A B C X) (K : Nat → Kind κ μ) (c : CState (κ × μ) O) :
    Step κ μ B C X → Option (Reply κ μ × CState (κ × μ) O)
  | .look i l =>
    match c.obj i with
    | none => none
    | some o =>
      match l.run F.I (K i) ⟨c.h, o, inward i c.its⟩ with
      | none => none
      | some (x, c') => some (.saw x, ⟨c'.h, upd c.obj i (some c'.o), outward i c.its c'.its⟩)
  | .call i m y => callOn F K c i m y
  | .insertFrom i y z thr left al =>
    match c.its y, c.its z with
    | some p, some q =>
      match c.loadRange F.I p q with
      | none => none
      | some vs => callOn F K c i (.insertRange (items vs thr) left al) y
    | _, _ => none
  | .peek x =>
    match c.its x with
    | none => none
    | some p => (c.load F.I p).map fun e => (.saw (.entry e), c)
  | .poke x v =>
    match c.its x with
    | none => none
    | some p =>
      match c.load F.I p with
      | none => none
      | some e => (c.store F.I p (e.1, v)).map fun c' => (.saw .unit, c')
  | .equal i j =>
    match elemsOn F.I c i, elemsOn F.I c j with
    | some xs, some ys =>
      match mapEqual xs ys with
      | some (.ok b) => some (.flag b, c)
      | _ => none
    | _, _ => none
  | .make i k => (outcome c.its (F.S.step (c.h, c.obj) (.make i k))).map fun r => (.ofAns r.1, r.2)
  | .makeRange i k left =>
    match F.S.step (c.h, c.obj) (.make i k) with
    | .ub => none
    | .exn w => some (.flag true, ⟨w.1, w.2, c.its⟩)
    | .ok w =>
      match w.2 i with
      | none => none
      | some o =>
        match constructOn F.I F.mn (K i) left w.1 o with
        | .ok s => some (.flag false, ⟨s.1, upd w.2 i (some s.2), c.its⟩)
        | _ => none
  | .makeFrom i j f => (outcome c.its (F.S.step (c.h, c.obj) (.makeFrom i j f))).map fun r => (.ofAns r.1, r.2)
  | .assign i j b => (outcome c.its (F.S.step (c.h, c.obj) (.bin i j b))).map fun r => (.ofAns r.1, r.2)
  | .drop i => (outcome c.its (F.S.step (c.h, c.obj) (.drop i))).map fun r => (.ofAns r.1, r.2)

/-- Running a program; nothing if it is undefined. -/
def Prog.run [DecidableEq κ] [DecidableEq μ] (F : Containers.Several.Kind (κ × μ) O A B C X) (K : Nat → Kind κ μ) : Prog κ μ B C X R → CState (κ × μ) O → Option (R × CState (κ × μ) O)
  | .ret r, c => some (r, c)
  | .step s k, c =>
    match s.run F K c with
    | some (x, c') => (k x).run F K c'
    | none => none

/-! ## Specification

For every map the elements in their order (and a capacity), for every variable a map and an index in it, or that it must not be used. -/

/-- A function of map `i`. -/
def callMeans (F : Containers.Several.Kind (κ × μ) O A B C X) (K : Nat → Kind κ μ) (a : AState A) (i : Nat) (m : MCall κ μ) (y : Nat) : Option (Reply κ μ × AState A) :=
  (a.of F i).bind fun b => (m.mean (K i) F.q y b).map fun r => (.did r.1, a.put F i r.2)

/-- The meaning of a step. -/
def Step.mean [DecidableEq κ] [DecidableEq μ] (F : Containers.Several.Kind (κ × μ) O A B C X) (K : Nat → Kind κ μ) (a : AState A) : Step κ μ B C X → Option (Reply κ μ × AState A)
  | .look i l => (a.of F i).bind fun b => (l.mean (K i) b).map fun r => (.saw r.1, a.put F i r.2)
  | .call i m y => callMeans F K a i m y
  | .insertFrom i y z thr left al => (a.range F i y z).bind fun vs => callMeans F K a i (.insertRange (items vs thr) left al) y
  | .peek x => (a.pos x).bind fun p => (a.elems F p.1)[p.2]?.map fun e => (.saw (.entry e), a)
  | .poke x v => (a.pos x).bind fun p => (a.of F p.1).map fun b => (.saw .unit, a.put F p.1 { b with s := (setAt b.s.1 p.2 v, b.s.2) })
  | .equal i j => some (.flag (decide (a.elems F i = a.elems F j)), a)
  | .make i k => (a.whole F (.make i k) some).map fun r => (.ofAns r.1, r.2)
  | .makeRange i k _ =>
    (a.whole F (.make i k) some).bind fun r =>
      if r.1 = .flag true then some (.flag true, r.2)
      else (r.2.of F i).map fun b => (.flag false, r.2.put F i { b with s := ((K i).insertAll [] b.s.1, b.s.2) })
  | .makeFrom i j f => (a.whole F (.makeFrom i j f) (a.fromTo F i j f)).map fun r => (.ofAns r.1, r.2)
  | .assign i j b => (a.whole F (.bin i j b) (a.binTo F i j b)).map fun r => (.ofAns r.1, r.2)
  | .drop i => (a.whole F (.drop i) fun k => if k = i then none else some k).map fun r => (.ofAns r.1, r.2)

/-- The meaning of a program. -/
def Prog.mean [DecidableEq κ] [DecidableEq μ] (F : Containers.Several.Kind (κ × μ) O A B C X) (K : Nat → Kind κ μ) : Prog κ μ B C X R → AState A → Option (R × AState A)
  | .ret r, a => some (r, a)
  | .step s k, a => (s.mean F K a).bind fun x => (k x.1).mean F K x.2

/-- What the program has to ensure. Maps that are assigned to each other have the same type; `G` says which assignments keep keys in order. -/
def Step.Pre (F : Containers.Several.Kind (κ × μ) O A B C X) (G : B → A → A → Prop) (K : Nat → Kind κ μ) (a : AState A) : Step κ μ B C X → Prop
  | .look i l => ∃ b, a.of F i = some b ∧ l.Pre (K i) b
  | .call i m _ => ∃ b, a.of F i = some b ∧ m.Pre (K i) F.q b
  | .insertFrom i y z thr left al => ∃ b vs, a.of F i = some b ∧ a.range F i y z = some vs ∧ (MCall.insertRange (items vs thr) left al).Pre (K i) F.q b
  | .peek x | .poke x _ => ∃ p, a.pos x = some p ∧ p.2 < (a.elems F p.1).length
  | .equal i j => (a.of F i).isSome ∧ (a.of F j).isSome
  | .make i k => F.S.pre a.obj (.make i k) ∧ ((F.S.ctorS k).2 = false → (K i).Inv (F.view (F.S.ctorS k).1).1)
  | .makeRange i k _ => F.S.pre a.obj (.make i k) ∧ ((F.S.ctorS k).2 = false → ∀ C, K i = .flat C ∨ K i = .multi C →
      C.Sortable (F.view (F.S.ctorS k).1).1 ∧ (F.view (F.S.ctorS k).1).1.Pairwise fun x y => ¬ C.Same x.1 y.1)
  | .makeFrom i j f => F.S.pre a.obj (.makeFrom i j f) ∧ K i = K j
  | .assign i j b => F.S.pre a.obj (.bin i j b) ∧ K i = K j ∧ ∀ s t, a.obj i = some s → a.obj j = some t → i ≠ j → G b s t
  | .drop i => F.S.pre a.obj (.drop i)

/-- In the run that it has. -/
def Prog.Pre [DecidableEq κ] [DecidableEq μ] (F : Containers.Several.Kind (κ × μ) O A B C X) (G : B → A → A → Prop) (K : Nat → Kind κ μ) : Prog κ μ B C X R → AState A → Prop
  | .ret _, _ => True
  | .step s k, a => s.Pre F G K a ∧ ∀ x, s.mean F K a = some x → (k x.1).Pre F G K x.2

/-- What is always so: in a `flat_map` keys increase, in a multimap they do not decrease, in a linear map none is there twice. -/
def Inv (F : Containers.Several.Kind (κ × μ) O A B C X) (K : Nat → Kind κ μ) (a : AState A) : Prop := ∀ i s, a.obj i = some s → (K i).Inv (F.view s).1

/-- Assignments of static maps after which both are in order. Copy: no element of the map that is assigned to throws when it is assigned to (others may). Move assignment:
the keys are not changed by moving from them (see `C112_move_assignment_violated`), or the map that is moved from has no elements. Maps have no `swap` of their own. -/
def statSafe : SBin (κ × μ) → List (κ × μ) → List (κ × μ) → Prop
  | .trivial, _, _ => True
  | .copy thr _, xs, _ => ∀ k, k < xs.length → thr k = false
  | .move mv _, _, ys => ∀ e ∈ ys, (mv e).1 = e.1
  | .swap, _, _ => False

/-- The same for small-buffer maps, where moving from a map leaves it empty. -/
def sboSafe : BBin (κ × μ) → SV (κ × μ) → SV (κ × μ) → Prop
  | .move, _, _ => True
  | .copyTrivial _, _, _ => True
  | .copy thr _ _, s, _ => ∀ k, k < s.1.length → thr k = false
  | .swap, _, _ => False

/-! ## Proofs -/

/-- The keys of `xs` are some of the keys of `ys`, in the same order. -/
def From (xs ys : List (κ × μ)) : Prop := ∃ zs : List (κ × μ), zs.Sublist ys ∧ xs.map (·.1) = zs.map (·.1)

theorem From.of_sub {xs ys : List (κ × μ)} (h : xs.Sublist ys) : From xs ys := ⟨xs, h, rfl⟩

theorem From.inv {xs ys : List (κ × μ)} (h : From xs ys) {K : Kind κ μ} (hi : K.Inv ys) : K.Inv xs := by
  obtain ⟨zs, h1, h2⟩ := h
  exact Maps.Inv.keys h2 (Maps.Inv.sub h1 hi)

/-- Operations with whole containers keep keys in order. -/
structure Keeps (F : Containers.Several.Kind (κ × μ) O A B C X) (G : B → A → A → Prop) : Prop where
  bin : ∀ {b s t}, G b s t → (From (F.view (F.S.binS b s t).1.1).1 (F.view s).1 ∨ From (F.view (F.S.binS b s t).1.1).1 (F.view t).1) ∧ From (F.view (F.S.binS b s t).1.2).1 (F.view t).1
  self : ∀ b s, From (F.view (F.S.selfS b s).1).1 (F.view s).1
  made : ∀ f t, From (F.view (F.S.ctorFromS f t).1.1).1 (F.view t).1
  left : ∀ f t, From (F.view (F.S.ctorFromS f t).1.2).1 (F.view t).1

variable {F : Containers.Several.Kind (κ × μ) O A B C X} {G : B → A → A → Prop} {mkA : Bool} {L : Lawful F.I F.mn mkA} {inv : Heap (κ × μ) → O → A → Prop} {K : Nat → Kind κ μ}

theorem Inv.put (KL : F.Laws L inv) {a : AState A} (hi : Inv F K a) {i : Nat} {h : Heap (κ × μ)} {o : O} {b : AS (κ × μ)} (r : L.Rep h o b.s.1 b.s.2) (hb : (K i).Inv b.s.1) :
    Inv F K (a.put F i b) := by
  intro j s hj
  simp only [AState.put] at hj
  by_cases hji : j = i
  · subst hji
    rw [upd_same] at hj; cases hj
    rw [(KL.pack r).2]; exact hb
  · rw [upd_other _ _ hji] at hj
    exact hi j s hj

theorem Inv.of {a : AState A} (hi : Inv F K a) {i : Nat} {b : AS (κ × μ)} (hb : a.of F i = some b) : (K i).Inv b.s.1 := by
  obtain ⟨s, h1, rfl⟩ := Containers.Several.of_some hb
  exact hi i s h1

theorem call_good (KL : F.Laws L inv) (hK : ∀ i, (K i).Ok) {c : CState (κ × μ) O} {a : AState A} (t : Containers.Several.Tracks F inv c a) (hi : Inv F K a) {i : Nat} {b : AS (κ × μ)}
    (hb : a.of F i = some b) {m : MCall κ μ} (y : Nat) (hp : m.Pre (K i) F.q b) :
    ∃ x a' c', callMeans F K a i m y = some (x, a') ∧ callOn F K c i m y = some (x, c') ∧ Containers.Several.Tracks F inv c' a' ∧ Inv F K a' := by
  obtain ⟨o, s, ho, ha, hs, v, t1⟩ := t.at_ KL hb
  rw [← KL.cfg] at hp
  obtain ⟨x, b', c', h1, h2, h3, h4, h5, h6⟩ := MCall.good (L := L) (mn := F.mn) (hK i) t1 (hi.of hb) m hp y
  rw [KL.cfg] at h1
  refine ⟨.did x, a.put F i b', ⟨c'.h, upd c.obj i (some c'.o), outward i c.its c'.its⟩, ?_, ?_, t.put KL ho h3 h5 h6.vars, hi.put KL h3.rep h4⟩
  · simp only [callMeans, hb, Option.bind_some, h1, Option.map_some]
  · simp only [callOn, ho, h2]

/-- What a function of a map leaves is a state of the container. -/
theorem call_view (KL : F.Laws L inv) (hK : ∀ i, (K i).Ok) {c : CState (κ × μ) O} {a : AState A} (t : Containers.Several.Tracks F inv c a) (hi : Inv F K a) {i : Nat} {b : AS (κ × μ)}
    (hb : a.of F i = some b) {m : MCall κ μ} {y : Nat} (hp : m.Pre (K i) F.q b) {r : MRes × AS (κ × μ)} (hr : m.mean (K i) F.q y b = some r) : F.view (F.pack r.2.s) = r.2.s := by
  obtain ⟨o, s, ho, ha, hs, v, t1⟩ := t.at_ KL hb
  rw [← KL.cfg] at hp hr
  obtain ⟨x, b', c', h1, h2, h3, -⟩ := MCall.good (L := L) (mn := F.mn) (hK i) t1 (hi.of hb) m hp y
  rw [h1] at hr; cases hr
  exact (KL.pack h3.rep).2

/-- The elements as iteration reads them. -/
theorem elemsOn_eq (KL : F.Laws L inv) {c : CState (κ × μ) O} {a : AState A} (t : Containers.Several.Tracks F inv c a) {i : Nat} {b : AS (κ × μ)} (hb : a.of F i = some b) :
    elemsOn F.I c i = some (a.elems F i) := by
  obtain ⟨o, s, ho, ha, hs, v, t1⟩ := t.at_ KL hb
  have := Containers.Rep.iterate t1.rep
  simp only [elemsOn, ho]
  rw [hs] at this
  rw [Containers.Several.elems_eq ha]
  exact this

/-- Steps with whole containers, as in programs with several vectors (C110). -/
theorem whole (KL : F.Laws L inv) {c : CState (κ × μ) O} {a : AState A} (t : Containers.Several.Tracks F inv c a) (s : Containers.Several.Step (κ × μ) B C X)
    (hp : s.Pre F (64 + F.I.mx) a) : ∃ x a' c', s.mean F a = some (x, a') ∧ s.run F (64 + F.I.mx) c = some (x, c') ∧ Containers.Several.Tracks F inv c' a' := by
  refine Containers.Several.Step.good KL (by omega) ?_ t s hp
  have h1 : F.I.mx < 2 ^ F.I.mx := Nat.lt_two_pow_self
  have h2 : 2 ^ F.I.mx ≤ 2 ^ (64 + F.I.mx - 1) := Nat.pow_le_pow_right (by omega) (by omega)
  exact_mod_cast Nat.lt_of_lt_of_le h1 h2

theorem Inv.assign (kp : Keeps F G) {a : AState A} (hi : Inv F K a) {i j : Nat} {b : B} (hK : K i = K j) (hs : ∀ s t, a.obj i = some s → a.obj j = some t → i ≠ j → G b s t)
    (p : Nat → Option (Nat × Nat)) : Inv F K ⟨(F.S.spec a.obj (.bin i j b)).1, p⟩ := by
  intro k u hk
  simp only [Sys.spec] at hk
  cases hA : a.obj i with
  | none => rw [hA] at hk; exact hi k u hk
  | some s =>
    cases hB : a.obj j with
    | none => rw [hA, hB] at hk; exact hi k u hk
    | some t =>
      rw [hA, hB] at hk
      simp only at hk
      split at hk
      · rename_i hij
        subst hij
        simp only at hk
        by_cases hki : k = i
        · subst hki
          rw [upd_same, Option.some.injEq] at hk
          subst hk
          exact (kp.self b s).inv (hi k s hA)
        · rw [upd_other _ _ hki] at hk; exact hi k u hk
      · rename_i hij
        simp only at hk
        obtain ⟨g1, g2⟩ := kp.bin (hs s t hA hB hij)
        by_cases hkj : k = j
        · subst hkj
          rw [upd_same, Option.some.injEq] at hk
          subst hk
          exact g2.inv (hi k t hB)
        · rw [upd_other _ _ hkj] at hk
          by_cases hki : k = i
          · subst hki
            rw [upd_same, Option.some.injEq] at hk
            subst hk
            rcases g1 with g1 | g1
            · exact g1.inv (hi k s hA)
            · exact g1.inv (hK ▸ hi j t hB)
          · rw [upd_other _ _ hki] at hk; exact hi k u hk

theorem Inv.makeFrom (kp : Keeps F G) {a : AState A} (hi : Inv F K a) {i j : Nat} {f : X} (hK : K i = K j) (p : Nat → Option (Nat × Nat)) :
    Inv F K ⟨(F.S.spec a.obj (.makeFrom i j f)).1, p⟩ := by
  intro k u hk
  simp only [Sys.spec] at hk
  cases hB : a.obj j with
  | none => rw [hB] at hk; exact hi k u hk
  | some t =>
    rw [hB] at hk
    simp only at hk
    split at hk
    · by_cases hkj : k = j
      · subst hkj; rw [upd_same, Option.some.injEq] at hk; subst hk; exact (kp.left f t).inv (hi k t hB)
      · rw [upd_other _ _ hkj] at hk; exact hi k u hk
    · by_cases hkj : k = j
      · subst hkj; rw [upd_same, Option.some.injEq] at hk; subst hk; exact (kp.left f t).inv (hi k t hB)
      · rw [upd_other _ _ hkj] at hk
        by_cases hki : k = i
        · subst hki
          rw [upd_same, Option.some.injEq] at hk
          subst hk
          exact (kp.made f t).inv (hK ▸ hi j t hB)
        · rw [upd_other _ _ hki] at hk; exact hi k u hk

/-- One step. -/
theorem Step.good [DecidableEq κ] [DecidableEq μ] (KL : F.Laws L inv) (kp : Keeps F G) (hK : ∀ i, (K i).Ok) {c : CState (κ × μ) O} {a : AState A} (t : Containers.Several.Tracks F inv c a)
    (hi : Inv F K a) (s : Step κ μ B C X) (hp : s.Pre F G K a) :
    ∃ x a' c', s.mean F K a = some (x, a') ∧ s.run F K c = some (x, c') ∧ Containers.Several.Tracks F inv c' a' ∧ Inv F K a' := by
  cases s with
  | look i l =>
    obtain ⟨b, hb, hp⟩ := hp
    obtain ⟨o, s, ho, ha, hs, v, t1⟩ := t.at_ KL hb
    obtain ⟨x, b', c', h1, h2, h3, h4, h5, h6⟩ := MLook.good (L := L) (hK i) t1 (hi.of hb) l hp
    exact ⟨.saw x, a.put F i b', ⟨c'.h, upd c.obj i (some c'.o), outward i c.its c'.its⟩, by simp only [Step.mean, hb, Option.bind_some, h1, Option.map_some],
      by simp only [Step.run, ho, h2], t.put KL ho h3 h5 h6.vars, hi.put KL h3.rep h4⟩
  | call i m y =>
    obtain ⟨b, hb, hp⟩ := hp
    exact call_good KL hK t hi hb y hp
  | insertFrom i y z thr left al =>
    obtain ⟨b, vs, hb, hr, hp⟩ := hp
    obtain ⟨p, q, e1, e2, e3⟩ := t.range KL hr
    obtain ⟨x, a', c', h1, h2, h3⟩ := call_good KL hK t hi hb y hp
    exact ⟨x, a', c', by simp only [Step.mean, hr, Option.bind_some, h1], by simp only [Step.run, e1, e2, e3, h2], h3⟩
  | peek x =>
    obtain ⟨⟨j, k⟩, hx, hk⟩ := hp
    have hg : (a.elems F j)[k]? = some ((a.elems F j)[k]) := List.getElem?_eq_getElem hk
    obtain ⟨o, -, e1, e2⟩ := t.val KL hx hg
    exact ⟨_, a, c, by simp only [Step.mean, hx, Option.bind_some, hg, Option.map_some]; rfl, by simp only [Step.run, e1, e2, Option.map_some], t, hi⟩
  | poke x v =>
    obtain ⟨⟨j, k⟩, hx, hk⟩ := hp
    simp only at hk
    have hg : (a.elems F j)[k]? = some ((a.elems F j)[k]) := List.getElem?_eq_getElem hk
    obtain ⟨o, -, e1, e2⟩ := t.val KL hx hg
    obtain ⟨y, a', c', h1, h2, h3⟩ := whole KL t (.poke x ((a.elems F j)[k].1, v)) ⟨(j, k), hx, hk⟩
    obtain ⟨o', s, -, ha, -⟩ := t.vars x j k hx
    have hof : ∃ b, a.of F j = some b ∧ b.s.1 = a.elems F j := ⟨_, by simp only [AState.of, ha]; rfl, by simp only [AState.elems, ha]; rfl⟩
    obtain ⟨b, hb, hbe⟩ := hof
    have hset : setAt b.s.1 k v = b.s.1.set k ((a.elems F j)[k].1, v) := by
      rw [setAt_set (by rw [hbe]; exact hk)]
      simp only [hbe]
    have hm : Step.mean F K a (.poke x v) = some (.saw .unit, a.put F j { b with s := (setAt b.s.1 k v, b.s.2) }) := by
      simp only [Step.mean, hx, Option.bind_some, hb, Option.map_some]
    have ha' : a' = a.put F j { b with s := (setAt b.s.1 k v, b.s.2) } := by
      simp only [Containers.Several.Step.mean, hx, Option.bind_some, hb, Option.map_some, Option.some.injEq, Prod.mk.injEq] at h1
      rw [← h1.2, hset]
    simp only [Containers.Several.Step.run, e1, Option.map_eq_some_iff, Prod.mk.injEq] at h2
    obtain ⟨c2, h4, -, h5⟩ := h2
    subst h5
    refine ⟨_, _, c2, hm, ?_, ha' ▸ h3, ?_⟩
    · simp only [Step.run, e1, e2, h4, Option.map_some]
    · obtain ⟨_, s', -, -, hbs, -, t1⟩ := t.at_ KL hb
      obtain ⟨r, -, h6, -⟩ := t1.assign (show k < b.s.1.length by rw [hbe]; exact hk) ((a.elems F j)[k].1, v)
      have r6 := h6.rep
      rw [← hset] at r6
      exact hi.put KL (b := { b with s := (setAt b.s.1 k v, b.s.2) }) r6 (Maps.Inv.keys (setAt_keys _ _ _) (hi.of hb))
  | equal i j =>
    obtain ⟨h1, h2⟩ := hp
    obtain ⟨b, hb⟩ := Option.isSome_iff_exists.1 h1
    obtain ⟨b', hb'⟩ := Option.isSome_iff_exists.1 h2
    exact ⟨_, a, c, rfl, by simp only [Step.run, elemsOn_eq KL t hb, elemsOn_eq KL t hb', mapEqual_eq], t, hi⟩
  | make i k =>
    obtain ⟨hp, hk⟩ := hp
    obtain ⟨x, a', c', h1, h2, h3⟩ := whole KL t (.make i k) hp
    refine ⟨_, a', c', by simp only [Step.mean]; rw [show a.whole F (.make i k) some = _ from h1]; rfl,
      by simp only [Step.run]; rw [show outcome c.its _ = _ from h2]; rfl, h3, ?_⟩
    have h1 : some (_, _) = some (x, a') := h1
    cases h1
    intro l u hl
    simp only [Sys.spec] at hl
    split at hl
    · exact hi l u hl
    · rename_i hth
      by_cases hki : l = i
      · subst hki
        rw [upd_same] at hl; cases hl; exact hk (by simpa using hth)
      · rw [upd_other _ _ hki] at hl; exact hi l u hl
  | makeRange i k left =>
    obtain ⟨hp, hd⟩ := hp
    obtain ⟨x, a', c', h1, h2, h3⟩ := whole KL t (.make i k) hp
    have h1 : a.whole F (.make i k) some = some (x, a') := h1
    have h2 : outcome c.its (F.S.step (c.h, c.obj) (.make i k)) = some (x, c') := h2
    have h1' := h1
    simp only [AState.whole, Option.some.injEq, Prod.mk.injEq] at h1'
    obtain ⟨hx, ha'⟩ := h1'
    simp only [Sys.spec] at hx ha'
    cases hthr : (F.S.ctorS k).2 with
    | true =>
      rw [hthr] at hx
      subst hx
      refine ⟨.flag true, a', c', ?_, ?_, h3, ?_⟩
      · simp only [Step.mean, h1, Option.bind_some, if_true]
      · revert h2
        simp only [Step.run]
        cases F.S.step (c.h, c.obj) (.make i k) <;> intro h2 <;> cases h2
        rfl
      · subst ha'
        simp only [hthr, if_true]
        exact hi
    | false =>
      rw [hthr] at hx
      subst hx
      have hobj : a'.obj = upd a.obj i (some (F.S.ctorS k).1) := by rw [← ha']; simp [hthr]
      have hof : ∃ b, a'.of F i = some b ∧ b.s = F.view (F.S.ctorS k).1 := by
        simp only [AState.of, hobj, upd_same]; exact ⟨_, rfl, rfl⟩
      obtain ⟨b, hb, hbe⟩ := hof
      obtain ⟨o, s, ho, ha, hs, v, t1⟩ := h3.at_ KL hb
      have r1 := t1.rep
      obtain ⟨h', o', e, r, f, p⟩ := constructOn_spec (L := L) (mn := F.mn) (hK i) left r1 t1.fresh (by rw [hbe]; exact hd hthr)
      have t2 : Containers.Tracks L ⟨h', o', inward i c'.its⟩ { b with s := ((K i).insertAll [] b.s.1, b.s.2) } := by
        refine ⟨r, f.fresh t1.fresh, fun z q hz => ?_⟩
        exfalso
        obtain ⟨ys, -, rfl⟩ := Containers.Several.of_some hb
        simp only [Option.bind_eq_some_iff] at hz
        obtain ⟨⟨j, l⟩, hz1, hz2⟩ := hz
        split at hz2
        · rename_i hji
          have hji : j = i := hji
          subst hji
          rw [← ha'] at hz1
          simp only [Option.bind_eq_some_iff] at hz1
          obtain ⟨⟨j', l'⟩, hz1, n, hn, s', -, hz3⟩ := hz1
          cases hn
          split at hz3
          · cases hz3
            obtain ⟨o, s, -, e2, -⟩ := t.vars z j' l' hz1
            have := hp.1
            rw [e2] at this; cases this
          · cases hz3
        · cases hz2
      have ht := h3.put KL (c' := ⟨h', o', inward i c'.its⟩) ho t2 f fun _ _ => rfl
      have hout : outward i c'.its (inward i c'.its) = c'.its := by funext z; exact Containers.Several.outward_inward i c'.its _ rfl
      simp only [hout] at ht
      have hi' : Inv F K (a'.put F i { b with s := ((K i).insertAll [] b.s.1, b.s.2) }) := by
        intro l u hl
        by_cases hli : l = i
        · subst hli
          simp only [AState.put] at hl
          rw [upd_same] at hl; cases hl
          rw [(KL.pack r).2]
          exact Maps.Inv.insertAll (hK l) _ Several.Inv.empty
        · simp only [AState.put] at hl
          rw [upd_other _ _ hli, hobj, upd_other _ _ hli] at hl
          exact hi l u hl
      refine ⟨.flag false, _, ⟨h', upd c'.obj i (some o'), c'.its⟩, ?_, ?_, ht, hi'⟩
      · simp only [Step.mean, h1, Option.bind_some, hb, Option.map_some]
        rw [if_neg (by simp)]
      · revert h2
        simp only [Step.run]
        cases F.S.step (c.h, c.obj) (.make i k) with
        | ok w =>
          intro h2
          cases h2
          have ho : w.2 i = some o := ho
          simp only [ho, e]
        | exn w => intro h2; cases h2
        | ub => intro h2; cases h2
  | makeFrom i j f =>
    obtain ⟨hp, hKK⟩ := hp
    obtain ⟨x, a', c', h1, h2, h3⟩ := whole KL t (.makeFrom i j f) hp
    refine ⟨_, a', c', by simp only [Step.mean]; rw [show a.whole F (.makeFrom i j f) (a.fromTo F i j f) = _ from h1]; rfl,
      by simp only [Step.run]; rw [show outcome c.its _ = _ from h2]; rfl, h3, ?_⟩
    have h1 : some (_, _) = some (x, a') := h1
    cases h1
    exact hi.makeFrom kp hKK _
  | assign i j b =>
    obtain ⟨hp, hKK, hs⟩ := hp
    obtain ⟨x, a', c', h1, h2, h3⟩ := whole KL t (.bin i j b) hp
    refine ⟨_, a', c', by simp only [Step.mean]; rw [show a.whole F (.bin i j b) (a.binTo F i j b) = _ from h1]; rfl,
      by simp only [Step.run]; rw [show outcome c.its _ = _ from h2]; rfl, h3, ?_⟩
    have h1 : some (_, _) = some (x, a') := h1
    cases h1
    exact hi.assign kp hKK hs _
  | drop i =>
    obtain ⟨x, a', c', h1, h2, h3⟩ := whole KL t (.drop i) hp
    refine ⟨_, a', c', by simp only [Step.mean]; rw [show a.whole F (.drop i) (fun k => if k = i then none else some k) = _ from h1]; rfl,
      by simp only [Step.run]; rw [show outcome c.its _ = _ from h2]; rfl, h3, ?_⟩
    have h1 : some (_, _) = some (x, a') := h1
    cases h1
    intro l u hl
    simp only [Sys.spec] at hl
    by_cases hli : l = i
    · subst hli
      rw [upd_same] at hl; cases hl
    · rw [upd_other _ _ hli] at hl; exact hi l u hl

/-- Programs with maps on containers of a kind. -/
theorem program [DecidableEq κ] [DecidableEq μ] (KL : F.Laws L inv) (kp : Keeps F G) (hK : ∀ i, (K i).Ok) : ∀ (P : Prog κ μ B C X R) {c : CState (κ × μ) O} {a : AState A},
    Containers.Several.Tracks F inv c a → Inv F K a → P.Pre F G K a →
    ∃ r a' c', P.mean F K a = some (r, a') ∧ P.run F K c = some (r, c') ∧ Containers.Several.Tracks F inv c' a' ∧ Inv F K a'
  | .ret r, c, a, t, hi, _ => ⟨r, a, c, rfl, rfl, t, hi⟩
  | .step s k, c, a, t, hi, ⟨h1, h2⟩ => by
    obtain ⟨x, a1, c1, e1, e2, t1, i1⟩ := Step.good KL kp hK t hi s h1
    obtain ⟨r, a2, c2, e3, e4, t2, i2⟩ := program KL kp hK (k x) t1 i1 (h2 _ e1)
    exact ⟨r, a2, c2, by simp only [Prog.mean, e1, Option.bind_some, e3], by simp only [Prog.run, e2, e4], t2, i2⟩

theorem stat_keeps (N : Nat) : Keeps (statKind (κ × μ) N) statSafe where
  bin := by
    intro b xs ys h
    cases b with
    | trivial => exact ⟨.inr (.of_sub (List.Sublist.refl _)), .of_sub (List.Sublist.refl _)⟩
    | swap => exact h.elim
    | copy thr left =>
      refine ⟨.inr (.of_sub ?_), .of_sub (List.Sublist.refl _)⟩
      show (Containers.sassignS xs ys thr left).1.Sublist ys
      simp only [Containers.sassignS]
      split
      · rename_i j hj
        exfalso
        rw [List.findIdx?_eq_some_iff_getElem] at hj
        obtain ⟨hl, hj, -⟩ := hj
        simp only [items, List.length_mapIdx, List.length_take] at hl
        simp only [items, List.getElem_mapIdx] at hj
        rw [h j (by omega)] at hj
        cases hj
      · split
        · exact List.take_sublist _ _
        · exact List.Sublist.refl _
    | move mv junk =>
      refine ⟨.inr (.of_sub (List.Sublist.refl _)), ys, List.Sublist.refl _, ?_⟩
      show (ys.map mv).map (·.1) = ys.map (·.1)
      rw [List.map_map]
      exact List.map_congr_left h
  self := fun b s => .of_sub (List.Sublist.refl _)
  made := by intro f t; cases f <;> exact .of_sub (List.Sublist.refl _)
  left := by
    intro f t
    cases f with
    | move => exact .of_sub (List.nil_sublist _)
    | _ => exact .of_sub (List.Sublist.refl _)

/-- What a container has after an assignment, if no element that is assigned to throws. -/
theorem assign_sub {q : Containers.Cfg} {xs ys : List (κ × μ)} {cap : Nat} {thr : Nat → Bool} {left : κ × μ} {al : Nat → Bool} (h : ∀ k, k < xs.length → thr k = false) :
    ((GOp.assign (items ys thr) left al).spec q (xs, cap)).1.1.Sublist ys := by
  simp only [GOp.spec]
  split
  · rename_i j hj
    exfalso
    rw [List.findIdx?_eq_some_iff_getElem] at hj
    obtain ⟨hl, hj, -⟩ := hj
    rw [List.length_take] at hl
    rw [List.getElem_take] at hj
    simp only [items, List.getElem_mapIdx] at hj
    rw [h j (by omega)] at hj
    cases hj
  · simp only [Containers.specInsert]
    split_ifs <;> simp only [items_val, List.map_drop, List.take_length, List.drop_length, List.append_nil, List.take_append_drop, List.Sublist.refl, List.take_sublist]

theorem assignTrivial_sub {sc mx : Nat} {ys : List (κ × μ)} {s : SV (κ × μ)} {thr : Nat → Bool} {al : Nat → Bool} :
    (Containers.bunS sc mx (.assignTrivial (items ys thr) al) s).1.1.Sublist ys := by
  simp only [Containers.bunS, GOp.spec]
  split_ifs <;> first | exact List.nil_sublist _ | (simp only [items_val]; exact List.Sublist.refl _)

theorem sbo_keeps (W sc mx : Nat) : Keeps (sboKind (κ × μ) W sc mx) sboSafe where
  bin := by
    intro b s t h
    cases b with
    | move => exact ⟨.inr (.of_sub (List.Sublist.refl _)), .of_sub (List.nil_sublist _)⟩
    | swap => exact h.elim
    | copyTrivial al => exact ⟨.inr (.of_sub assignTrivial_sub), .of_sub (List.Sublist.refl _)⟩
    | copy thr left al => exact ⟨.inr (.of_sub (assign_sub h)), .of_sub (List.Sublist.refl _)⟩
  self := fun b s => .of_sub (List.Sublist.refl _)
  made := by
    intro f t
    cases f with
    | move => exact .of_sub (List.Sublist.refl _)
    | copy thr al => exact .of_sub assignTrivial_sub
  left := by
    intro f t
    cases f with
    | move => exact .of_sub (List.nil_sublist _)
    | copy thr al => exact .of_sub (List.Sublist.refl _)

/-! ## C112 -/

/-- C112: a program with any number of static maps (`static_flat_map`, `static_flat_multimap`, `static_linear_map`) and iterators of them that keeps to the rules (`Step.Pre`) is defined;
everything it reads, which steps throw, which maps are equal and every iterator it is given are as for sequences of elements with positions. At every moment every map has its elements in the
order of their keys (a linear map: no key twice). What is missing: what is missing in C106, assignments after which keys need not be in order (`statSafe`), and self move
assignment. -/
theorem C112_static_maps_partial [DecidableEq κ] [DecidableEq μ] {N : Nat} (hK : ∀ i, (K i).Ok) (P : Prog κ μ (SBin (κ × μ)) (SCtor (κ × μ)) SFrom R)
    (hP : P.Pre (statKind (κ × μ) N) statSafe K ⟨fun _ => none, fun _ => none⟩) :
    ∃ r a c, P.mean (statKind (κ × μ) N) K ⟨fun _ => none, fun _ => none⟩ = some (r, a) ∧
      P.run (statKind (κ × μ) N) K ⟨⟨fun _ => none, 0⟩, fun _ => none, fun _ => none⟩ = some (r, c) ∧
      Containers.Several.Tracks (statKind (κ × μ) N) (sinv N) c a ∧ Inv (statKind (κ × μ) N) K a :=
  program (stat_laws N) (stat_keeps N) hK P Containers.Several.start_tracks (fun i s h => by cases h) hP

/-- C112 for maps on `sbo_vector`. If the program destroys all its maps, nothing stays allocated. -/
theorem C112_sbo_maps_partial [DecidableEq κ] [DecidableEq μ] {W sc mx : Nat} (hp : Sbo.Params W sc mx) (hK : ∀ i, (K i).Ok) (P : Prog κ μ (BBin (κ × μ)) (BCtor (κ × μ)) BFrom R)
    (hP : P.Pre (sboKind (κ × μ) W sc mx) sboSafe K ⟨fun _ => none, fun _ => none⟩) :
    ∃ r a c, P.mean (sboKind (κ × μ) W sc mx) K ⟨fun _ => none, fun _ => none⟩ = some (r, a) ∧
      P.run (sboKind (κ × μ) W sc mx) K ⟨⟨fun _ => none, 0⟩, fun _ => none, fun _ => none⟩ = some (r, c) ∧
      Containers.Several.Tracks (sboKind (κ × μ) W sc mx) (Sbo.binv hp) c a ∧ Inv (sboKind (κ × μ) W sc mx) K a ∧ ((∀ i, a.obj i = none) → ∀ n, c.h.blk n = none) := by
  obtain ⟨r, a, c, e1, e2, t, i⟩ := program (sbo_laws hp) (sbo_keeps W sc mx) hK P Containers.Several.start_tracks (fun i s h => by cases h) hP
  exact ⟨r, a, c, e1, e2, t, i, fun h n => t.rel.empty h n⟩

/-- A function of one map leaves the others alone: they have the same elements, iterators of them are where they were and refer to the same elements. -/
theorem C112_others_stay [DecidableEq κ] [DecidableEq μ] (KL : F.Laws L inv) (kp : Keeps F G) (hK : ∀ i, (K i).Ok) {c : CState (κ × μ) O} {a : AState A}
    (t : Containers.Several.Tracks F inv c a) (hi : Inv F K a) {i j x k y : Nat} (hij : j ≠ i) (hx : a.pos x = some (j, k)) (hxy : x ≠ y) (m : MCall κ μ)
    (hp : (Step.call (B := B) (C := C) (X := X) i m y).Pre F G K a) :
    ∃ r a' c', (Step.call i m y).mean F K a = some (r, a') ∧ (Step.call i m y).run F K c = some (r, c') ∧ Containers.Several.Tracks F inv c' a' ∧ a'.obj j = a.obj j ∧
      a'.pos x = some (j, k) ∧ c'.its x = c.its x ∧ ∀ p, c.its x = some p → c'.load F.I p = c.load F.I p := by
  obtain ⟨r, a', c', h1, h2, h3, -⟩ := Step.good KL kp hK t hi _ hp
  obtain ⟨b, hb, -⟩ := hp
  obtain ⟨o, s, e1, e2, e3, e4⟩ := t.vars x j k hx
  have h1' := h1
  simp only [Step.mean, callMeans, hb, Option.bind_some, Option.map_eq_some_iff, Prod.mk.injEq] at h1'
  obtain ⟨r', hr, -, rfl⟩ := h1'
  have hobj : (a.put F i r'.2).obj j = a.obj j := by simp only [AState.put]; exact upd_other _ _ hij
  have hpos : (a.put F i r'.2).pos x = some (j, k) := by
    have hbx : b.pos x = none := by
      obtain ⟨s', -, rfl⟩ := Containers.Several.of_some hb
      simp only [hx, Option.bind_some]
      exact if_neg hij
    simp only [AState.put, Several.MCall.mean_pos hr hbx hxy, hx]
    simp [hij]
  obtain ⟨o', s', d1, d2, d3, d4⟩ := h3.vars x j k hpos
  have hoo : o' = o := by
    have h2' := h2
    simp only [Step.run, callOn] at h2'
    split at h2'
    · cases h2'
    · split at h2'
      · cases h2'
      · cases h2'
        simp only at d1
        rw [upd_other _ _ hij, e1] at d1
        cases d1; rfl
  subst hoo
  rw [hobj, e2] at d2; cases d2
  refine ⟨r, _, c', h1, h2, h3, hobj, hpos, d3.trans e3.symm, fun p hp => ?_⟩
  rw [e3] at hp; cases hp
  simp only [CState.load, t.slots KL e1 e2, h3.slots KL d1 (hobj.trans e2)]

/-- Inserting all elements of one flat map into another: it has the elements of both, for keys that both have its own; or nothing has changed, if something throws. The other map
keeps its elements. -/
theorem C112_union [DecidableEq κ] [DecidableEq μ] (KL : F.Laws L inv) (kp : Keeps F G) (hK : ∀ i, (K i).Ok) {c : CState (κ × μ) O} {a : AState A}
    (t : Containers.Several.Tracks F inv c a) (hi : Inv F K a) {i j y z : Nat} {D : Cfg κ μ} (hij : j ≠ i) (hi' : K i = .flat D) (hj' : K j = .flat D) {s u : A}
    (hA : a.obj i = some s) (hB : a.obj j = some u) (hy : a.pos y = some (j, 0)) (hz : a.pos z = some (j, (F.view u).1.length)) (hs : D.Sortable (F.view u).1)
    (hr : Containers.appendPre F.q (F.view s) (F.view u).1.length) (thr : Nat → Bool) (left : κ × μ) (al : Nat → Bool) :
    ∃ r a' c', (Step.insertFrom (B := B) (C := C) (X := X) i y z thr left al).run F K c = some (r, c') ∧ Containers.Several.Tracks F inv c' a' ∧ Inv F K a' ∧ a'.obj j = a.obj j ∧
      (r = .did .threw ∧ a'.elems F i = (F.view s).1 ∨
        r = .did (.done false) ∧ ∀ e, e ∈ a'.elems F i ↔ e ∈ (F.view s).1 ∨ e ∈ (F.view u).1 ∧ ∀ x ∈ (F.view s).1, ¬ D.Same x.1 e.1) := by
  have hrange : a.range F i y z = some (F.view u).1 := by
    simp only [AState.range, hy, hz, Containers.Several.elems_eq hB]
    rw [if_pos ⟨trivial, hij, Nat.zero_le _⟩]
    simp
  have hd : (F.view u).1.Pairwise fun x y => ¬ D.Same x.1 y.1 := by
    have h := hi j u hB
    rw [hj'] at h
    exact List.Pairwise.imp (fun {x y} hxy hsame => by rw [hsame.1] at hxy; cases hxy) h
  have hof : ∃ b, a.of F i = some b ∧ b.s = F.view s := ⟨_, by simp only [AState.of, hA]; rfl, rfl⟩
  obtain ⟨b, hb, hbs⟩ := hof
  have hlen : (items (F.view u).1 thr).length = (F.view u).1.length := by simp [items]
  have hpre : (MCall.insertRange (items (F.view u).1 thr) left al).Pre (K i) F.q b := ⟨by rw [hbs, hlen]; exact hr, fun C' hC' => by
    rw [hi'] at hC'
    rcases hC' with hC' | hC' <;> cases hC'
    rw [items_val]
    exact ⟨hs, hd⟩⟩
  obtain ⟨r, a', c', h1, h2, h3, h4⟩ := Step.good KL kp hK t hi (.insertFrom i y z thr left al) ⟨b, _, hb, hrange, hpre⟩
  refine ⟨r, a', c', h2, h3, h4, ?_⟩
  simp only [Step.mean, hrange, Option.bind_some, callMeans, hb, Option.map_eq_some_iff, Prod.mk.injEq] at h1
  obtain ⟨r', hr', rfl, rfl⟩ := h1
  have hv := call_view KL hK t hi hb hpre hr'
  refine ⟨by simp only [AState.put]; exact upd_other _ _ hij, ?_⟩
  have hel : (a.put F i r'.2).elems F i = r'.2.s.1 := by
    rw [Containers.Several.elems_eq (s := F.pack r'.2.s) (by simp only [AState.put, upd_same]), hv]
  rw [hel]
  simp only [MCall.mean, Option.some.injEq] at hr'
  subst hr'
  by_cases hth : ((GOp.append (items (F.view u).1 thr) al).spec F.q b.s).2 = true
  · left
    simp only [resOp, hth, if_true, true_and]
    rw [hbs]
  · right
    have hth : ((GOp.append (items (F.view u).1 thr) al).spec F.q b.s).2 = false := by simpa using hth
    simp only [resOp, hth, Bool.false_eq_true, if_false, true_and]
    intro e
    rw [hbs, hi', items_val]
    have := hK i
    rw [hi'] at this
    exact mem_insertEach this.1.order (F.view u).1 hd e

/-- A map on `sbo_vector` that has been moved from, by construction or by assignment, has no elements and can be used again: `i` has what `j` had; a key inserted into `j` is the only one
there, unless the insertion throws, and then there is none. -/
theorem C112_moved_from [DecidableEq κ] [DecidableEq μ] {W sc mx : Nat} (hp : Sbo.Params W sc mx) (hK : ∀ i, (K i).Ok) {c : CState (κ × μ) (Sbo (κ × μ))} {a : AState (SV (κ × μ))}
    (t : Containers.Several.Tracks (sboKind (κ × μ) W sc mx) (Sbo.binv hp) c a) (hi : Inv (sboKind (κ × μ) W sc mx) K a) {i j y : Nat} (hij : i ≠ j) (hKK : K i = K j) {s : SV (κ × μ)}
    (hj : a.obj j = some s) {m : Step κ μ (BBin (κ × μ)) (BCtor (κ × μ)) BFrom} (hm : a.obj i = none ∧ m = .makeFrom i j .move ∨ a.obj i ≠ none ∧ m = .assign i j .move) (k : κ) (v : μ)
    (th : Bool) (al : Nat → Bool) :
    ∃ r a' c', (.step m fun _ => .step (.call j (.insert k v th al) y) fun r => .ret r : Prog κ μ (BBin (κ × μ)) (BCtor (κ × μ)) BFrom (Reply κ μ)).run (sboKind (κ × μ) W sc mx) K c = some (r, c') ∧
      Containers.Several.Tracks (sboKind (κ × μ) W sc mx) (Sbo.binv hp) c' a' ∧ a'.obj i = some s ∧
      (r = .did .threw ∧ a'.elems (sboKind (κ × μ) W sc mx) j = [] ∨ r = .did (.done true) ∧ a'.elems (sboKind (κ × μ) W sc mx) j = [(k, v)]) := by
  have h1 : ∃ r a' c', m.mean (sboKind (κ × μ) W sc mx) K a = some (r, a') ∧ m.run (sboKind (κ × μ) W sc mx) K c = some (r, c') ∧
      Containers.Several.Tracks (sboKind (κ × μ) W sc mx) (Sbo.binv hp) c' a' ∧ Inv (sboKind (κ × μ) W sc mx) K a' ∧ a'.obj i = some s ∧ a'.obj j = some ([], sc) := by
    rcases hm with ⟨hn, rfl⟩ | ⟨hn, rfl⟩
    · obtain ⟨r, a', c', e1, e2, e3, e4⟩ := Step.good (sbo_laws hp) (sbo_keeps W sc mx) hK t hi (.makeFrom i j .move) ⟨⟨hn, s, hj, trivial⟩, hKK⟩
      refine ⟨r, a', c', e1, e2, e3, e4, ?_⟩
      simp only [Step.mean, AState.whole, Option.map_some, Option.some.injEq, Prod.mk.injEq] at e1
      rw [← e1.2]
      simp only [Sys.spec, hj]
      exact ⟨(upd_other _ _ hij).trans (upd_same ..), upd_same ..⟩
    · obtain ⟨u, hu⟩ := Option.ne_none_iff_exists'.1 hn
      obtain ⟨r, a', c', e1, e2, e3, e4⟩ := Step.good (sbo_laws hp) (sbo_keeps W sc mx) hK t hi (.assign i j .move)
        ⟨⟨u, s, hu, hj, by rw [if_neg hij]; trivial⟩, hKK, fun _ _ _ _ _ => trivial⟩
      refine ⟨r, a', c', e1, e2, e3, e4, ?_⟩
      simp only [Step.mean, AState.whole, Option.map_some, Option.some.injEq, Prod.mk.injEq] at e1
      rw [← e1.2]
      simp only [Sys.spec, hj, hu, if_neg hij]
      exact ⟨(upd_other _ _ hij).trans (upd_same ..), upd_same ..⟩
  obtain ⟨r1, a1, c1, e1, e2, t1, i1, hi1, hj1⟩ := h1
  have hb : ∃ b, a1.of (sboKind (κ × μ) W sc mx) j = some b ∧ b.s = ([], sc) := ⟨_, by simp only [AState.of, hj1]; rfl, rfl⟩
  obtain ⟨b, hb, hbs⟩ := hb
  have hpre : (MCall.insert k v th al).Pre (K j) (sboKind (κ × μ) W sc mx).q b := by
    intro E hE hh hmx hlen _
    rw [hbs] at hlen ⊢
    have h0 : 0 = sc := hlen
    have := hp.lt
    show max 1 (2 * sc) ≤ mx
    omega
  obtain ⟨r2, a2, c2, d1, d2, t2, i2⟩ := Step.good (sbo_laws hp) (sbo_keeps W sc mx) hK t1 i1 (.call j (.insert k v th al) y) ⟨b, hb, hpre⟩
  simp only [Step.mean, callMeans, hb, Option.bind_some, Option.map_eq_some_iff, Prod.mk.injEq] at d1
  obtain ⟨r', hr', rfl, rfl⟩ := d1
  refine ⟨.did r'.1, a1.put (sboKind (κ × μ) W sc mx) j r'.2, c2, by simp only [Prog.run, e2, d2], t2, (upd_other _ _ hij).trans hi1, ?_⟩
  have hel : (a1.put (sboKind (κ × μ) W sc mx) j r'.2).elems (sboKind (κ × μ) W sc mx) j = r'.2.s.1 := by
    rw [Containers.Several.elems_eq (s := r'.2.s) (by simp only [AState.put, upd_same]; rfl)]; rfl
  rw [hel]
  have hhas : (K j).has b.s.1 k = false := by rw [hbs]; cases K j <;> rfl
  simp only [MCall.mean, hhas, Bool.false_eq_true, if_false, Option.some.injEq] at hr'
  subst hr'
  have hsp : ((K j).adds b.s.1 k v th al).spec (sboKind (κ × μ) W sc mx).q b.s = ((((K j).adds b.s.1 k v th al).spec (sboKind (κ × μ) W sc mx).q b.s).1, true) ∧
        (((K j).adds b.s.1 k v th al).spec (sboKind (κ × μ) W sc mx).q b.s).1.1 = [] ∨
      (((K j).adds b.s.1 k v th al).spec (sboKind (κ × μ) W sc mx).q b.s).2 = false ∧ (((K j).adds b.s.1 k v th al).spec (sboKind (κ × μ) W sc mx).q b.s).1.1 = [(k, v)] := by
    rw [hbs]
    cases K j with
    | linear E =>
      simp only [Kind.adds, GOp.spec, Containers.specPush]
      split_ifs <;> simp
    | flat C =>
      simp only [Kind.adds, GOp.spec, Containers.specInsert, Kind.place]
      split_ifs <;> simp
    | multi C =>
      simp only [Kind.adds, GOp.spec, Containers.specInsert, Kind.place]
      split_ifs <;> simp
  simp only [resOp, afterOp]
  rcases hsp with ⟨h1, h2⟩ | ⟨h1, h2⟩
  · left
    rw [h2, h1]
    exact ⟨rfl, rfl⟩
  · right
    rw [h2, h1]
    exact ⟨rfl, rfl⟩

/-- `std::swap` of two maps (they have no function of their own): moves through a third. -/
def swapProg (i j n : Nat) (f : X) (b : B) : Prog κ μ B C X Unit :=
  .step (.makeFrom n i f) fun _ => .step (.assign i j b) fun _ => .step (.assign j n b) fun _ => .step (.drop n) fun _ => .ret ()

theorem outcome_keep {its : Nat → Option Containers.Several.Ptr} {w : Out (Heap (κ × μ) × (Nat → Option O))} {r : Ans (κ × μ)} {c' : CState (κ × μ) O} (h : outcome its w = some (r, c')) :
    c'.its = its := by
  cases w <;> simp only [outcome, Option.some.injEq, Prod.mk.injEq, reduceCtorEq] at h <;> exact h.2 ▸ rfl

/-- After `std::swap` of two static maps each has what the other had, whatever moving from elements does to them. Iterators of other maps are what they were. -/
theorem C112_static_swap [DecidableEq κ] [DecidableEq μ] {N : Nat} {c : CState (κ × μ) (Stat (κ × μ))} {a : AState (List (κ × μ))}
    (t : Containers.Several.Tracks (statKind (κ × μ) N) (sinv N) c a) (hi : Inv (statKind (κ × μ) N) K a) {i j n : Nat} (hij : i ≠ j) {xs ys : List (κ × μ)} (hA : a.obj i = some xs)
    (hB : a.obj j = some ys) (hn : a.obj n = none) (hij' : K i = K j) (mv : κ × μ → κ × μ) (junk : κ × μ) :
    ∃ a' c', (swapProg i j n .move (.move mv junk) : Prog κ μ (SBin (κ × μ)) (SCtor (κ × μ)) SFrom Unit).run (statKind (κ × μ) N) K c = some ((), c') ∧
      Containers.Several.Tracks (statKind (κ × μ) N) (sinv N) c' a' ∧ Inv (statKind (κ × μ) N) K a' ∧ a'.obj = upd (upd a.obj i (some ys)) j (some xs) ∧
      ∀ x l k, a.pos x = some (l, k) → l ≠ i → l ≠ j → a'.pos x = some (l, k) := by
  have hni : n ≠ i := by rintro rfl; rw [hn] at hA; cases hA
  have hnj : n ≠ j := by rintro rfl; rw [hn] at hB; cases hB
  have hin : i ≠ n := Ne.symm hni
  have hjn : j ≠ n := Ne.symm hnj
  have hji : j ≠ i := Ne.symm hij
  obtain ⟨r1, a1, c1, m1, e1, t1⟩ := whole (stat_laws N) t (.makeFrom n i .move) ⟨hn, xs, hA, trivial⟩
  have o1 : a1.obj = upd (upd a.obj n (some xs)) i (some []) := by
    simp only [Containers.Several.Step.mean, AState.whole, Option.some.injEq, Prod.mk.injEq] at m1
    rw [← m1.2]
    simp only [Sys.spec, hA]; rfl
  have p1 : ∀ x l k, a.pos x = some (l, k) → l ≠ i → l ≠ j → a1.pos x = some (l, k) := by
    intro x l k hx h1 h2
    obtain ⟨o, u, -, d2, -, d4⟩ := t.vars x l k hx
    have hln : l ≠ n := by rintro rfl; rw [hn] at d2; cases d2
    simp only [Containers.Several.Step.mean, AState.whole, Option.some.injEq, Prod.mk.injEq] at m1
    rw [← m1.2] at o1 ⊢
    simp only at o1
    simp only [o1, hx, Option.bind_some, AState.fromTo, if_neg h1, upd_other _ _ h1, upd_other _ _ hln, d2]
    exact if_pos d4
  obtain ⟨r2, a2, c2, m2, e2, t2⟩ := whole (stat_laws N) t1 (.bin i j (.move mv junk)) ⟨[], ys, by rw [o1, upd_same], by rw [o1, upd_other _ _ hji, upd_other _ _ hjn, hB],
    by rw [if_neg hij]; trivial⟩
  have o2 : a2.obj = upd (upd a1.obj i (some ys)) j (some (ys.map mv)) := by
    simp only [Containers.Several.Step.mean, AState.whole, Option.some.injEq, Prod.mk.injEq] at m2
    rw [← m2.2]
    simp only [Sys.spec, o1, upd_same, upd_other _ _ hji, upd_other _ _ hjn, hB, if_neg hij]; rfl
  have p2 : ∀ x l k, a1.pos x = some (l, k) → l ≠ i → l ≠ j → a2.pos x = some (l, k) := by
    intro x l k hx h1 h2
    obtain ⟨o, u, -, d2, -, d4⟩ := t1.vars x l k hx
    simp only [Containers.Several.Step.mean, AState.whole, Option.some.injEq, Prod.mk.injEq] at m2
    rw [← m2.2] at o2 ⊢
    simp only at o2
    have hb : a1.binTo (statKind (κ × μ) N) i j (.move mv junk) l = some l := by
      simp only [AState.binTo, o1, upd_same, upd_other _ _ hji, upd_other _ _ hjn, hB, if_neg hij, if_neg h1, if_neg h2]
    simp only [o2, hx, Option.bind_some, hb, upd_other _ _ h1, upd_other _ _ h2, d2]
    exact if_pos d4
  have hjo : a2.obj j = some (ys.map mv) := by rw [o2, upd_same]
  have hno : a2.obj n = some xs := by rw [o2, upd_other _ _ hnj, upd_other _ _ hni, o1, upd_other _ _ hni, upd_same]
  obtain ⟨r3, a3, c3, m3, e3, t3⟩ := whole (stat_laws N) t2 (.bin j n (.move mv junk)) ⟨_, xs, hjo, hno, by rw [if_neg hjn]; trivial⟩
  have o3 : a3.obj = upd (upd a2.obj j (some xs)) n (some (xs.map mv)) := by
    simp only [Containers.Several.Step.mean, AState.whole, Option.some.injEq, Prod.mk.injEq] at m3
    rw [← m3.2]
    simp only [Sys.spec, hjo, hno, if_neg hjn]; rfl
  have p3 : ∀ x l k, a2.pos x = some (l, k) → l ≠ n → l ≠ j → a3.pos x = some (l, k) := by
    intro x l k hx h1 h2
    obtain ⟨o, u, -, d2, -, d4⟩ := t2.vars x l k hx
    simp only [Containers.Several.Step.mean, AState.whole, Option.some.injEq, Prod.mk.injEq] at m3
    rw [← m3.2] at o3 ⊢
    simp only at o3
    have hb : a2.binTo (statKind (κ × μ) N) j n (.move mv junk) l = some l := by
      simp only [AState.binTo, hjo, hno, if_neg hjn, if_neg h2, if_neg h1]
    simp only [o3, hx, Option.bind_some, hb, upd_other _ _ h1, upd_other _ _ h2, d2]
    exact if_pos d4
  obtain ⟨r4, a4, c4, m4, e4, t4⟩ := whole (stat_laws N) t3 (.drop n) ⟨xs.map mv, by rw [o3, upd_same]⟩
  have o4 : a4.obj = upd a3.obj n none := by
    simp only [Containers.Several.Step.mean, AState.whole, Option.some.injEq, Prod.mk.injEq] at m4
    rw [← m4.2]; rfl
  have p4 : ∀ x l k, a3.pos x = some (l, k) → l ≠ n → a4.pos x = some (l, k) := by
    intro x l k hx h1
    obtain ⟨o, u, -, d2, -, d4⟩ := t3.vars x l k hx
    simp only [Containers.Several.Step.mean, AState.whole, Option.some.injEq, Prod.mk.injEq] at m4
    rw [← m4.2] at o4 ⊢
    simp only at o4
    simp only [o4, hx, Option.bind_some, if_neg h1, upd_other _ _ h1, d2]
    exact if_pos d4
  have hobj : a4.obj = upd (upd a.obj i (some ys)) j (some xs) := by
    rw [o4, o3, o2, o1]
    funext l
    by_cases h1 : l = n
    · subst h1; simp [upd, hni, hnj, hn]
    · by_cases h2 : l = j
      · subst h2; simp [upd, h1]
      · by_cases h3 : l = i
        · subst h3; simp [upd, h1, h2]
        · simp [upd, h1, h2, h3]
  refine ⟨a4, c4, ?_, t4, ?_, hobj, fun x l k hx h1 h2 => ?_⟩
  · simp only [swapProg, Prog.run, Step.run]
    simp only [Containers.Several.Step.run] at e1 e2 e3 e4
    simp only [e1, e2, e3, e4, Option.map_some]
  · intro l u hl
    rw [hobj] at hl
    by_cases hlj : l = j
    · subst hlj; rw [upd_same] at hl; cases hl; rw [← hij']; exact hi i xs hA
    · rw [upd_other _ _ hlj] at hl
      by_cases hli : l = i
      · subst hli; rw [upd_same] at hl; cases hl; rw [hij']; exact hi j ys hB
      · rw [upd_other _ _ hli] at hl; exact hi l u hl
  · have hln : l ≠ n := by
      rintro rfl
      obtain ⟨o, u, -, d2, -⟩ := t.vars x l k hx
      rw [hn] at d2; cases d2
    exact p4 x l k (p3 x l k (p2 x l k (p1 x l k hx h1 h2) h1 h2) hln h2) hln

/-- Moving a small-buffer map, by construction or assignment: contents and iterators. -/
theorem sbo_move {W sc mx : Nat} {hp : Sbo.Params W sc mx} {c : CState (κ × μ) (Sbo (κ × μ))} {a : AState (SV (κ × μ))}
    (t : Containers.Several.Tracks (sboKind (κ × μ) W sc mx) (Sbo.binv hp) c a) {i j : Nat} (hij : i ≠ j) {s : SV (κ × μ)} (hj : a.obj j = some s)
    {m : Containers.Several.Step (κ × μ) (BBin (κ × μ)) (BCtor (κ × μ)) BFrom} (hm : a.obj i = none ∧ m = .makeFrom i j .move ∨ a.obj i ≠ none ∧ m = .bin i j .move) :
    ∃ r a' c', m.run (sboKind (κ × μ) W sc mx) (64 + mx) c = some (r, c') ∧ Containers.Several.Tracks (sboKind (κ × μ) W sc mx) (Sbo.binv hp) c' a' ∧ c'.its = c.its ∧
      a'.obj = upd (upd a.obj i (some s)) j (some ([], sc)) ∧ (∀ x k, a.pos x = some (j, k) → sc < s.2 → a'.pos x = some (i, k)) ∧
      ∀ x l k, a.pos x = some (l, k) → l ≠ i → l ≠ j → a'.pos x = some (l, k) := by
  have hji : j ≠ i := Ne.symm hij
  rcases hm with ⟨hn, rfl⟩ | ⟨hn, rfl⟩
  · obtain ⟨r, a', c', e1, e2, e3⟩ := whole (sbo_laws hp) t (.makeFrom i j .move) ⟨hn, s, hj, trivial⟩
    have hk : c'.its = c.its := outcome_keep e2
    simp only [Containers.Several.Step.mean, AState.whole, Option.some.injEq, Prod.mk.injEq] at e1
    have ho : ((sboKind (κ × μ) W sc mx).S.spec a.obj (.makeFrom i j .move)).1 = upd (upd a.obj i (some s)) j (some ([], sc)) := by simp only [Sys.spec, hj]; rfl
    rw [ho] at e1
    refine ⟨r, a', c', e2, e3, hk, e1.2 ▸ rfl, fun x k hx hl => ?_, fun x l k hx h1 h2 => ?_⟩
    · rw [← e1.2]
      obtain ⟨o, u, -, d2, -, d4⟩ := t.vars x j k hx
      rw [hj] at d2; cases d2
      have hf : a.fromTo (sboKind (κ × μ) W sc mx) i j .move j = some i := by
        simp only [AState.fromTo, if_true, hj, Option.bind_some]
        show (if sc < s.2 then Containers.Several.Goes.other else .lost).to j i = some i
        rw [if_pos hl]; rfl
      simp only [hx, Option.bind_some, hf, upd_other _ _ hij, upd_same]
      exact if_pos d4
    · rw [← e1.2]
      obtain ⟨o, u, -, d2, -, d4⟩ := t.vars x l k hx
      simp only [hx, Option.bind_some, AState.fromTo, if_neg h2, upd_other _ _ h1, upd_other _ _ h2, d2]
      exact if_pos d4
  · obtain ⟨w, hw⟩ := Option.ne_none_iff_exists'.1 hn
    obtain ⟨r, a', c', e1, e2, e3⟩ := whole (sbo_laws hp) t (.bin i j .move) ⟨w, s, hw, hj, by rw [if_neg hij]; trivial⟩
    have hk : c'.its = c.its := outcome_keep e2
    simp only [Containers.Several.Step.mean, AState.whole, Option.some.injEq, Prod.mk.injEq] at e1
    have ho : ((sboKind (κ × μ) W sc mx).S.spec a.obj (.bin i j .move)).1 = upd (upd a.obj i (some s)) j (some ([], sc)) := by simp only [Sys.spec, hj, hw, if_neg hij]; rfl
    rw [ho] at e1
    refine ⟨r, a', c', e2, e3, hk, e1.2 ▸ rfl, fun x k hx hl => ?_, fun x l k hx h1 h2 => ?_⟩
    · rw [← e1.2]
      obtain ⟨o, u, -, d2, -, d4⟩ := t.vars x j k hx
      rw [hj] at d2; cases d2
      have hf : a.binTo (sboKind (κ × μ) W sc mx) i j .move j = some i := by
        simp only [AState.binTo, hw, hj, if_neg hij, if_neg hji, if_true]
        show (if sc < s.2 then Containers.Several.Goes.other else .lost).to j i = some i
        rw [if_pos hl]; rfl
      simp only [hx, Option.bind_some, hf, upd_other _ _ hij, upd_same]
      exact if_pos d4
    · rw [← e1.2]
      obtain ⟨o, u, -, d2, -, d4⟩ := t.vars x l k hx
      have hf : a.binTo (sboKind (κ × μ) W sc mx) i j .move l = some l := by
        simp only [AState.binTo, hw, hj, if_neg hij, if_neg h1, if_neg h2]
      simp only [hx, Option.bind_some, hf, upd_other _ _ h1, upd_other _ _ h2, d2]
      exact if_pos d4

/-- After `std::swap` of two maps on `sbo_vector` each has what the other had. Iterators have not changed; those of a map whose elements are in the heap are iterators to the same elements,
which are now in the other map. -/
theorem C112_sbo_swap [DecidableEq κ] [DecidableEq μ] {W sc mx : Nat} {hp : Sbo.Params W sc mx} {c : CState (κ × μ) (Sbo (κ × μ))} {a : AState (SV (κ × μ))}
    (t : Containers.Several.Tracks (sboKind (κ × μ) W sc mx) (Sbo.binv hp) c a) (hi : Inv (sboKind (κ × μ) W sc mx) K a) {i j n : Nat} (hij : i ≠ j) {s u : SV (κ × μ)}
    (hA : a.obj i = some s) (hB : a.obj j = some u) (hn : a.obj n = none) (hij' : K i = K j) :
    ∃ a' c', (swapProg i j n .move .move : Prog κ μ (BBin (κ × μ)) (BCtor (κ × μ)) BFrom Unit).run (sboKind (κ × μ) W sc mx) K c = some ((), c') ∧
      Containers.Several.Tracks (sboKind (κ × μ) W sc mx) (Sbo.binv hp) c' a' ∧ Inv (sboKind (κ × μ) W sc mx) K a' ∧ a'.obj = upd (upd a.obj i (some u)) j (some s) ∧ c'.its = c.its ∧
      (∀ x k, a.pos x = some (i, k) → sc < s.2 → a'.pos x = some (j, k)) ∧ (∀ x k, a.pos x = some (j, k) → sc < u.2 → a'.pos x = some (i, k)) ∧
      ∀ x l k, a.pos x = some (l, k) → l ≠ i → l ≠ j → a'.pos x = some (l, k) := by
  have hni : n ≠ i := by rintro rfl; rw [hn] at hA; cases hA
  have hnj : n ≠ j := by rintro rfl; rw [hn] at hB; cases hB
  have hin : i ≠ n := Ne.symm hni
  have hjn : j ≠ n := Ne.symm hnj
  have hji : j ≠ i := Ne.symm hij
  obtain ⟨r1, a1, c1, e1, t1, k1, o1, f1, g1⟩ := sbo_move t hni hA (.inl ⟨hn, rfl⟩)
  obtain ⟨r2, a2, c2, e2, t2, k2, o2, f2, g2⟩ := sbo_move t1 hij (s := u) (by rw [o1, upd_other _ _ hji, upd_other _ _ hjn, hB]) (.inr ⟨by rw [o1, upd_same]; simp, rfl⟩)
  obtain ⟨r3, a3, c3, e3, t3, k3, o3, f3, g3⟩ := sbo_move t2 hjn (s := s) (by rw [o2, upd_other _ _ hnj, upd_other _ _ hni, o1, upd_other _ _ hni, upd_same])
    (.inr ⟨by rw [o2, upd_same]; simp, rfl⟩)
  obtain ⟨r4, a4, c4, m4, e4, t4⟩ := whole (sbo_laws hp) t3 (.drop n) ⟨([], sc), by rw [o3, upd_same]⟩
  have k4 : c4.its = c3.its := outcome_keep e4
  have o4 : a4.obj = upd a3.obj n none := by
    simp only [Containers.Several.Step.mean, AState.whole, Option.some.injEq, Prod.mk.injEq] at m4
    rw [← m4.2]; rfl
  have g4 : ∀ x l k, a3.pos x = some (l, k) → l ≠ n → a4.pos x = some (l, k) := by
    intro x l k hx h1
    obtain ⟨o, w, -, d2, -, d4⟩ := t3.vars x l k hx
    simp only [Containers.Several.Step.mean, AState.whole, Option.some.injEq, Prod.mk.injEq] at m4
    rw [← m4.2] at o4 ⊢
    simp only at o4
    simp only [o4, hx, Option.bind_some, if_neg h1, upd_other _ _ h1, d2]
    exact if_pos d4
  have hobj : a4.obj = upd (upd a.obj i (some u)) j (some s) := by
    rw [o4, o3, o2, o1]
    funext l
    by_cases h1 : l = n
    · subst h1; simp [upd, hni, hnj, hn]
    · by_cases h2 : l = j
      · subst h2; simp [upd, h1]
      · by_cases h3 : l = i
        · subst h3; simp [upd, h1, h2]
        · simp [upd, h1, h2, h3]
  refine ⟨a4, c4, ?_, t4, ?_, hobj, by rw [k4, k3, k2, k1], ?_, ?_, ?_⟩
  · simp only [swapProg, Prog.run, Step.run]
    simp only [Containers.Several.Step.run] at e1 e2 e3 e4
    simp only [e1, e2, e3, e4, Option.map_some]
  · intro l w hl
    rw [hobj] at hl
    by_cases hlj : l = j
    · subst hlj; rw [upd_same] at hl; cases hl; rw [← hij']; exact hi i s hA
    · rw [upd_other _ _ hlj] at hl
      by_cases hli : l = i
      · subst hli; rw [upd_same] at hl; cases hl; rw [hij']; exact hi j u hB
      · rw [upd_other _ _ hli] at hl; exact hi l w hl
  · intro x k hx hl
    exact g4 x j k (f3 x k (g2 x n k (f1 x k hx hl) hni hnj) hl) hjn
  · intro x k hx hl
    exact g4 x i k (g3 x i k (f2 x k (g1 x j k hx hjn hji) hl) hij hin) hin
  · intro x l k hx h1 h2
    have hln : l ≠ n := by
      rintro rfl
      obtain ⟨o, w, -, d2, -⟩ := t.vars x l k hx
      rw [hn] at d2; cases d2
    exact g4 x l k (g3 x l k (g2 x l k (g1 x l k hx hln h1) h1 h2) h2 hln) hln

/-! ## The hypotheses can be met -/

/-- A decision procedure for what the program has to ensure, without ranges for sorted maps; `same i j` says that the maps `i` and `j` have the same type, `d` and `g` decide what is needed
for whole containers. -/
def Step.ok (F : Containers.Several.Kind (κ × μ) O A B C X) (d : (Nat → Option A) → WOp (GOp (κ × μ)) B C X → Bool) (g : B → A → A → Bool) (K : Nat → Kind κ μ) (same : Nat → Nat → Bool)
    (a : AState A) : Step κ μ B C X → Bool
  | .look i l => (a.of F i).any fun b => l.ok (K i) b
  | .call i m _ => (a.of F i).any fun b => m.ok (K i) F.q b
  | .insertFrom i y z thr left al => (a.of F i).any fun b => (a.range F i y z).any fun vs => (MCall.insertRange (items vs thr) left al).ok (K i) F.q b
  | .peek x | .poke x _ => (a.pos x).any fun p => decide (p.2 < (a.elems F p.1).length)
  | .equal i j => (a.of F i).isSome && (a.of F j).isSome
  | .make i k => d a.obj (.make i k) && ((F.S.ctorS k).2 || (F.view (F.S.ctorS k).1).1.isEmpty)
  | .makeRange i k _ => d a.obj (.make i k) && ((F.S.ctorS k).2 || match K i with | .linear _ => true | _ => false)
  | .makeFrom i j f => d a.obj (.makeFrom i j f) && same i j
  | .assign i j b => d a.obj (.bin i j b) && same i j && match a.obj i, a.obj j with
    | some s, some t => g b s t
    | _, _ => true
  | .drop i => d a.obj (.drop i)

@[inherit_doc Step.ok]
def Prog.ok [DecidableEq κ] [DecidableEq μ] (F : Containers.Several.Kind (κ × μ) O A B C X) (d : (Nat → Option A) → WOp (GOp (κ × μ)) B C X → Bool) (g : B → A → A → Bool)
    (K : Nat → Kind κ μ) (same : Nat → Nat → Bool) : Prog κ μ B C X R → AState A → Bool
  | .ret _, _ => true
  | .step s k, a => s.ok F d g K same a && match s.mean F K a with
    | some x => (k x.1).ok F d g K same x.2
    | none => true

theorem Step.ok_pre {d : (Nat → Option A) → WOp (GOp (κ × μ)) B C X → Bool} {g : B → A → A → Bool} (hd : ∀ w op, d w op = true → F.S.pre w op) (hg : ∀ b s t, g b s t = true → G b s t)
    {same : Nat → Nat → Bool} (hs : ∀ i j, same i j = true → K i = K j) {a : AState A} {s : Step κ μ B C X} (h : s.ok F d g K same a = true) : s.Pre F G K a := by
  cases s <;> simp only [Step.ok, Option.any_eq_true, decide_eq_true_eq, Bool.and_eq_true, Bool.or_eq_true] at h
  case look => obtain ⟨b, h1, h2⟩ := h; exact ⟨b, h1, MLook.ok_pre h2⟩
  case call => obtain ⟨b, h1, h2⟩ := h; exact ⟨b, h1, MCall.ok_pre h2⟩
  case insertFrom => obtain ⟨b, h1, vs, h2, h3⟩ := h; exact ⟨b, vs, h1, h2, MCall.ok_pre h3⟩
  case make =>
    refine ⟨hd _ _ h.1, fun h1 => ?_⟩
    rcases h.2 with h2 | h2
    · rw [h1] at h2; cases h2
    · rw [List.isEmpty_iff.1 h2]; exact Several.Inv.empty
  case makeRange =>
    refine ⟨hd _ _ h.1, fun h1 C hC => ?_⟩
    rcases h.2 with h2 | h2
    · rw [h1] at h2; cases h2
    · rcases hC with hC | hC <;> rw [hC] at h2 <;> cases h2
  case makeFrom i j f => exact ⟨hd _ _ h.1, hs _ _ h.2⟩
  case assign i j b =>
    refine ⟨hd _ _ h.1.1, hs _ _ h.1.2, fun s t h1 h2 _ => hg _ _ _ ?_⟩
    have := h.2
    rw [h1, h2] at this
    exact this
  case drop => exact hd _ _ h
  all_goals exact h

theorem Prog.ok_pre [DecidableEq κ] [DecidableEq μ] {d : (Nat → Option A) → WOp (GOp (κ × μ)) B C X → Bool} {g : B → A → A → Bool} (hd : ∀ w op, d w op = true → F.S.pre w op)
    (hg : ∀ b s t, g b s t = true → G b s t) {same : Nat → Nat → Bool} (hs : ∀ i j, same i j = true → K i = K j) :
    ∀ {P : Prog κ μ B C X R} {a : AState A}, P.ok F d g K same a = true → P.Pre F G K a
  | .ret _, _, _ => trivial
  | .step s k, a, h => by
    simp only [Prog.ok, Bool.and_eq_true] at h
    refine ⟨Step.ok_pre hd hg hs h.1, fun x hx => ?_⟩
    have := h.2
    rw [hx] at this
    exact Prog.ok_pre hd hg hs this

/-- Deciding `statSafe`. -/
def statOk : SBin (Nat × Nat) → List (Nat × Nat) → List (Nat × Nat) → Bool
  | .trivial, _, _ => true
  | .copy thr _, xs, _ => (List.range xs.length).all fun k => !thr k
  | .move mv _, _, ys => ys.all fun e => decide ((mv e).1 = e.1)
  | .swap, _, _ => false

theorem statOk_safe (b : SBin (Nat × Nat)) (s t : List (Nat × Nat)) (h : statOk b s t = true) : statSafe b s t := by
  cases b with
  | trivial => exact trivial
  | copy thr left => exact fun k hk => by simpa using List.all_eq_true.1 h k (List.mem_range.2 hk)
  | move mv junk => exact fun e he => by simpa using List.all_eq_true.1 h e he
  | swap => cases h

/-- Deciding `sboSafe`. -/
def sboOk : BBin (Nat × Nat) → SV (Nat × Nat) → SV (Nat × Nat) → Bool
  | .move, _, _ => true
  | .copyTrivial _, _, _ => true
  | .copy thr _ _, s, _ => (List.range s.1.length).all fun k => !thr k
  | .swap, _, _ => false

theorem sboOk_safe (b : BBin (Nat × Nat)) (s t : SV (Nat × Nat)) (h : sboOk b s t = true) : sboSafe b s t := by
  cases b with
  | copy thr left al => exact fun k hk => by simpa using List.all_eq_true.1 h k (List.mem_range.2 hk)
  | swap => cases h
  | _ => exact trivial

open Verif.Maps.Several (exKinds exSame exKinds_ok exSame_eq)

/-- A program with static maps for four elements: a flat map with two elements, and an iterator to one of them; a copy, which is made different and compared; the first map is moved
from, is empty and used again; the elements of the copy are put into a linear map made from a range, one of whose keys is there already; an element more than fits; the maps are assigned
and destroyed. -/
def exStatic : Prog Nat Nat (SBin (Nat × Nat)) (SCtor (Nat × Nat)) SFrom (List (Reply Nat Nat)) :=
  .step (.make 0 .dflt) fun _ => .step (.call 0 (.insert 5 1 false fun _ => false) 0) fun _ => .step (.call 0 (.insert 3 2 false fun _ => false) 0) fun _ =>
  .step (.makeFrom 1 0 (.copy fun _ => false)) fun _ => .step (.equal 0 1) fun r1 => .step (.look 1 (.update 5 8)) fun _ => .step (.equal 0 1) fun r2 =>
  .step (.makeFrom 2 0 .move) fun _ => .step (.look 0 .iterate) fun r3 => .step (.call 0 (.insert 9 9 false fun _ => false) 0) fun _ => .step (.peek 0) fun r4 => .step (.poke 0 7) fun _ =>
  .step (.look 1 (.first 1)) fun _ => .step (.look 1 (.last 2)) fun _ =>
  .step (.makeRange 20 (.sized [⟨(5, 9), false⟩, ⟨(4, 4), false⟩, ⟨(5, 6), false⟩]) (0, 0)) fun r5 => .step (.insertFrom 20 1 2 (fun _ => false) (0, 0) fun _ => false) fun r6 =>
  .step (.look 20 .iterate) fun r7 => .step (.call 20 (.insert 1 1 false fun _ => false) 3) fun _ => .step (.call 20 (.insert 2 1 false fun _ => false) 3) fun r8 =>
  .step (.assign 0 1 (.copy (fun k => k == 1) (0, 0))) fun r9 => .step (.assign 2 1 (.move (fun e => (e.1, 0)) (0, 0))) fun _ => .step (.look 2 .iterate) fun r10 =>
  .step (.look 1 .iterate) fun r11 => .step (.makeRange 21 (.sized [⟨(5, 9), false⟩, ⟨(4, 4), false⟩, ⟨(5, 6), false⟩, ⟨(5, 6), false⟩, ⟨(5, 6), false⟩]) (0, 0)) fun r12 =>
  .step (.drop 20) fun _ => .step (.drop 2) fun _ => .step (.drop 1) fun _ => .step (.drop 0) fun _ => .ret [r1, r2, r3, r4, r5, r6, r7, r8, r9, r10, r11, r12]

/-- What it learns, by the code and by the meaning. -/
example : (exStatic.run (statKind (Nat × Nat) 4) exKinds ⟨⟨fun _ => none, 0⟩, fun _ => none, fun _ => none⟩).map (·.1) = some [.flag true, .flag false, .saw (.entries []), .saw (.entry (9, 9)), .flag false, .did (.done false),
      .saw (.entries [(5, 9), (4, 4), (3, 2)]), .did .threw, .flag true, .saw (.entries [(3, 2), (5, 8)]), .saw (.entries [(3, 0), (5, 0)]), .flag true] ∧
    (exStatic.mean (statKind (Nat × Nat) 4) exKinds ⟨fun _ => none, fun _ => none⟩).map (·.1) = some [.flag true, .flag false, .saw (.entries []), .saw (.entry (9, 9)), .flag false, .did (.done false),
      .saw (.entries [(5, 9), (4, 4), (3, 2)]), .did .threw, .flag true, .saw (.entries [(3, 2), (5, 8)]), .saw (.entries [(3, 0), (5, 0)]), .flag true] := by
  constructor <;> decide +kernel

theorem stat_dec (w : Nat → Option (List (Nat × Nat))) (op : WOp (GOp (Nat × Nat)) (SBin (Nat × Nat)) (SCtor (Nat × Nat)) SFrom) (h : decide ((ssys (Nat × Nat) 4).pre w op) = true) :
    (statKind (Nat × Nat) 4).S.pre w op := of_decide_eq_true (p := (ssys (Nat × Nat) 4).pre w op) h

/-- The hypotheses of `C112_static_maps_partial` for it. -/
example : (∀ i, (exKinds i).Ok) ∧ exStatic.Pre (statKind (Nat × Nat) 4) statSafe exKinds ⟨fun _ => none, fun _ => none⟩ :=
  ⟨exKinds_ok, Prog.ok_pre stat_dec statOk_safe exSame_eq (by decide +kernel)⟩

/-- The hypotheses of the theorems about static maps: two flat maps, iterators to the first element and to the end of one of them, and a map that does not exist. -/
example : ∃ (c : CState (Nat × Nat) (Stat (Nat × Nat))) (a : AState (List (Nat × Nat))), Containers.Several.Tracks (statKind (Nat × Nat) 4) (sinv 4) c a ∧ Inv (statKind (Nat × Nat) 4) exKinds a ∧
    a.obj 0 = some [(3, 2), (5, 1)] ∧ a.obj 1 = some [(3, 9)] ∧ a.obj 2 = none ∧ a.pos 0 = some (0, 0) ∧ a.pos 1 = some (0, 2) ∧ exKinds 0 = .flat exMap ∧ exKinds 1 = .flat exMap ∧
    exMap.Sortable [(3, 2), (5, 1)] ∧ Containers.appendPre (statKind (Nat × Nat) 4).q ([(3, 9)], 4) 2 ∧
    (Step.call (B := SBin (Nat × Nat)) (C := SCtor (Nat × Nat)) (X := SFrom) 1 (.insert 4 4 false fun _ => false) 7).Pre (statKind (Nat × Nat) 4) statSafe exKinds a := by
  obtain ⟨r, a, c, e1, -, t, i⟩ := C112_static_maps_partial (N := 4) (K := exKinds) (R := Unit) exKinds_ok
    (.step (.make 0 .dflt) fun _ => .step (.call 0 (.insert 5 1 false fun _ => false) 0) fun _ => .step (.call 0 (.insert 3 2 false fun _ => false) 0) fun _ =>
      .step (.make 1 .dflt) fun _ => .step (.call 1 (.insert 3 9 false fun _ => false) 2) fun _ => .step (.look 0 (.first 0)) fun _ => .step (.look 0 (.last 1)) fun _ => .ret ())
    (Prog.ok_pre stat_dec statOk_safe exSame_eq (by decide +kernel))
  refine ⟨c, a, t, i, ?_⟩
  cases e1
  exact ⟨by decide +kernel, by decide +kernel, rfl, by decide +kernel, by decide +kernel, rfl, rfl, .inl (.inl (by decide)), (fun _ => .inl (by decide)),
    Step.ok_pre stat_dec statOk_safe exSame_eq (by decide +kernel)⟩

/-- A program with maps that have room for three elements inside: a flat map grows into the heap; it is moved, and an iterator with it; the map that was moved from gets elements
again; they are assigned, compared and destroyed. -/
def exSmall : Prog Nat Nat (BBin (Nat × Nat)) (BCtor (Nat × Nat)) BFrom (List (Reply Nat Nat)) :=
  .step (.make 0 .dflt) fun _ => .step (.call 0 (.insert 5 1 false fun _ => false) 0) fun _ => .step (.call 0 (.insert 3 2 false fun _ => false) 0) fun _ =>
  .step (.call 0 (.insert 4 3 false fun _ => false) 0) fun _ => .step (.call 0 (.insert 1 4 false fun _ => false) 0) fun _ => .step (.look 0 (.find 4 0)) fun _ =>
  .step (.makeFrom 1 0 .move) fun _ => .step (.peek 0) fun r1 => .step (.poke 0 7) fun _ => .step (.call 0 (.insert 9 9 false fun _ => false) 1) fun r2 => .step (.peek 1) fun r3 =>
  .step (.look 1 .iterate) fun r4 => .step (.assign 0 1 (.copy (fun k => k == 2) (0, 0) fun _ => false)) fun r5 => .step (.look 0 .iterate) fun r6 =>
  .step (.assign 0 1 (.copy (fun _ => false) (0, 0) fun _ => false)) fun r7 => .step (.equal 0 1) fun r8 => .step (.drop 1) fun _ => .step (.drop 0) fun _ =>
  .ret [r1, r2, r3, r4, r5, r6, r7, r8]

/-- What it learns, by the code and by the meaning. -/
example : (exSmall.run (sboKind (Nat × Nat) 64 3 1000) exKinds ⟨⟨fun _ => none, 0⟩, fun _ => none, fun _ => none⟩).map (·.1) = some [.saw (.entry (4, 3)), .did (.done true), .saw (.entry (9, 9)),
      .saw (.entries [(1, 4), (3, 2), (4, 7), (5, 1)]), .flag true, .saw (.entries [(1, 4)]), .flag false, .flag true] ∧
    (exSmall.mean (sboKind (Nat × Nat) 64 3 1000) exKinds ⟨fun _ => none, fun _ => none⟩).map (·.1) = some [.saw (.entry (4, 3)), .did (.done true), .saw (.entry (9, 9)),
      .saw (.entries [(1, 4), (3, 2), (4, 7), (5, 1)]), .flag true, .saw (.entries [(1, 4)]), .flag false, .flag true] := by
  constructor <;> decide +kernel

theorem sbo_dec (w : Nat → Option (SV (Nat × Nat))) (op : WOp (GOp (Nat × Nat)) (BBin (Nat × Nat)) (BCtor (Nat × Nat)) BFrom) (h : decide ((bsys (Nat × Nat) 64 3 1000).pre w op) = true) :
    (sboKind (Nat × Nat) 64 3 1000).S.pre w op := of_decide_eq_true (p := (bsys (Nat × Nat) 64 3 1000).pre w op) h

/-- The hypotheses of `C112_sbo_maps_partial` for it. -/
example : Sbo.Params 64 3 1000 ∧ (∀ i, (exKinds i).Ok) ∧ exSmall.Pre (sboKind (Nat × Nat) 64 3 1000) sboSafe exKinds ⟨fun _ => none, fun _ => none⟩ :=
  ⟨Containers.params3, exKinds_ok, Prog.ok_pre sbo_dec sboOk_safe exSame_eq (by decide +kernel)⟩

/-- The hypotheses of the theorems about small-buffer maps: one with its elements in the heap and an iterator into it, one with its elements inside, and one that does not exist. -/
example : ∃ (c : CState (Nat × Nat) (Sbo (Nat × Nat))) (a : AState (SV (Nat × Nat))), Containers.Several.Tracks (sboKind (Nat × Nat) 64 3 1000) (Sbo.binv Containers.params3) c a ∧
    Inv (sboKind (Nat × Nat) 64 3 1000) exKinds a ∧ a.obj 0 = some ([(1, 4), (3, 2), (4, 3), (5, 1)], 6) ∧ a.obj 1 = some ([(3, 9)], 3) ∧ a.obj 2 = none ∧ a.pos 0 = some (0, 2) ∧
    exKinds 0 = exKinds 1 ∧ exKinds 2 = exKinds 0 := by
  obtain ⟨r, a, c, e1, -, t, i, -⟩ := C112_sbo_maps_partial Containers.params3 (K := exKinds) (R := Unit) exKinds_ok
    (.step (.make 0 .dflt) fun _ => .step (.call 0 (.insert 5 1 false fun _ => false) 0) fun _ => .step (.call 0 (.insert 3 2 false fun _ => false) 0) fun _ =>
      .step (.call 0 (.insert 4 3 false fun _ => false) 0) fun _ => .step (.call 0 (.insert 1 4 false fun _ => false) 0) fun _ => .step (.look 0 (.find 4 0)) fun _ =>
      .step (.make 1 .dflt) fun _ => .step (.call 1 (.insert 3 9 false fun _ => false) 2) fun _ => .ret ())
    (Prog.ok_pre sbo_dec sboOk_safe exSame_eq (by decide +kernel))
  refine ⟨c, a, t, i, ?_⟩
  cases e1
  exact ⟨by decide +kernel, by decide +kernel, rfl, by decide +kernel, rfl, rfl⟩

/-- Move assignment of static maps leaves elements behind. If moving from keys changes them (as for strings), the map that was moved from is not in order any more: here a flat map
has the key 0 twice, and it does not have the keys that it had. -/
theorem C112_move_assignment_violated : ((.step (.make 0 .dflt) fun _ => .step (.call 0 (.insert 1 1 false fun _ => false) 0) fun _ => .step (.call 0 (.insert 2 2 false fun _ => false) 0) fun _ =>
      .step (.make 1 .dflt) fun _ => .step (.assign 1 0 (.move (fun e => (0, e.2)) (0, 0))) fun r => .step (.look 1 .iterate) fun es => .step (.look 0 .iterate) fun es' => .ret [r, es, es'] :
      Prog Nat Nat (SBin (Nat × Nat)) (SCtor (Nat × Nat)) SFrom (List (Reply Nat Nat))).run (statKind (Nat × Nat) 4) exKinds ⟨⟨fun _ => none, 0⟩, fun _ => none, fun _ => none⟩).map (·.1) =
    some [.flag false, .saw (.entries [(1, 1), (2, 2)]), .saw (.entries [(0, 1), (0, 2)])] := by
  decide +kernel

/-- Copy assignment of static maps in which the assignment of an element throws: a key is there, but is not found. -/
theorem C112_copy_assignment_violated : ((.step (.make 0 .dflt) fun _ => .step (.call 0 (.insert 1 1 false fun _ => false) 0) fun _ => .step (.call 0 (.insert 2 2 false fun _ => false) 0) fun _ =>
      .step (.call 0 (.insert 3 3 false fun _ => false) 0) fun _ => .step (.make 1 .dflt) fun _ => .step (.call 1 (.insert 5 5 false fun _ => false) 0) fun _ =>
      .step (.call 1 (.insert 6 6 false fun _ => false) 0) fun _ => .step (.call 1 (.insert 7 7 false fun _ => false) 0) fun _ =>
      .step (.assign 0 1 (.copy (fun k => k == 1) (2, 2))) fun r => .step (.look 0 .iterate) fun es => .step (.look 0 (.lookup 5)) fun v => .ret [r, es, v] :
      Prog Nat Nat (SBin (Nat × Nat)) (SCtor (Nat × Nat)) SFrom (List (Reply Nat Nat))).run (statKind (Nat × Nat) 4) exKinds ⟨⟨fun _ => none, 0⟩, fun _ => none, fun _ => none⟩).map (·.1) =
    some [.flag true, .saw (.entries [(5, 5), (2, 2), (3, 3)]), .saw (.mapped none)] := by
  decide +kernel

end Verif.Maps.Small
