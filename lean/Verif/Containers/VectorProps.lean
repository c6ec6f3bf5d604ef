import Verif.Containers.VectorWorld
import Verif.Bounded.CheckInRange

/-!
# Vectors: C25, C26, C27, C46

Every theorem is about `bounded_vector<T, mn, mx>` for arbitrary `mn ≤ mx`, and so about
`vector` (`mn = 0`) and `stable_vector` (`mn = mx`).
-/

namespace Verif.Containers

open Verif Impl Lawful Verif.Bounded

variable {V : Type}

namespace Vec

/-- `operator[]`, source/containers/bounded_vector.cpp 150 (`*(begin() + index)`). -/
def index (h : Heap V) (o : Hdr V) (k : Nat) : Option V := readCell (mem h o).1 (mem h o).2 k

/-- source/containers/at.cpp 24-31: `size` is an `integer<0, mx>`. The conversion to the index
type in line 30 does not change the value. -/
def at' (W mx : Nat) (h : Heap V) (o : Hdr V) (i : Arg) : Option (Res V) :=
  match minus W ((Rng.mk 0 mx).unchecked W o.size) (constB 1) with
  | none => none
  | some .ub => some .ub
  | some .exn => some .exn
  | some (.ok last) =>
    match checkInRange W (.bounded (i.toB W)) (.bounded (constB 0)) (.bounded last) with
    | none => none
    | some .ub => some .ub
    | some .exn => some .exn
    | some (.ok c) =>
      match c.value with
      | .ok k => match index h o k.toNat with
        | some v => some (.ok v)
        | none => some .ub
      | .ub => some .ub
      | .exn => some .exn

end Vec

/-- What can be seen of a vector: size, elements through `operator[]`, capacity. -/
structure Shows (mn mx : Nat) (h : Heap V) (o : Hdr V) (a : VA V) : Prop where
  size : o.size = a.elems.length
  bound : a.elems.length ≤ mx
  elem : ∀ k (hk : k < a.elems.length), Vec.index h o k = some a.elems[k]
  cap : ∀ xs cap nul, a = .live xs cap nul →
    Vec.capacity mn mx o = some cap ∧ xs.length ≤ cap ∧ mn ≤ cap ∧ cap ≤ mx

theorem shows_of {mn mx : Nat} {hmm : mn ≤ mx} {h : Heap V} {o : Hdr V} {a : VA V}
    (v : vinv mn mx hmm h o a) : Shows mn mx h o a := by
  cases a with
  | live xs cap nul =>
    obtain ⟨r, _⟩ := v
    have hm : Vec.mem h o = (cap, cells xs) := r.mem
    have hr : mn ≤ cap ∧ cap ≤ mx := r.view.range
    refine ⟨r.1.2.2, (by simp only [VA.elems]; exact Nat.le_trans r.2 hr.2), ?_, ?_⟩
    · intro k hk
      simp only [VA.elems] at hk ⊢
      have := r.2
      simp only [Vec.index, hm, readCell, cells]
      rw [if_pos (by omega), List.getElem?_eq_getElem hk]
    · intro xs' cap' nul' e
      cases e
      exact ⟨r.view.cap, r.2, hr⟩
  | moved =>
    exact ⟨v.2, Nat.zero_le _, fun k hk => absurd hk (Nat.not_lt_zero _), fun _ _ _ e => by cases e⟩

/-- The start of a program: nothing is allocated and there is no object. -/
def start (V O : Type) : Heap V × (Nat → Option O) := (⟨fun _ => none, 0⟩, fun _ => none)

/-- C25: every history of a program with any number of vectors (constructors, copies, moves,
swaps, assignments, `push_back`, `pop_back`, `append`, `insert`, `erase`, `erase_if`, `resize`,
`assign`, `reserve`, `shrink_to_fit`, `clear`, destruction), with any element throwing and any
allocation failing, never goes wrong, throws exactly when the specification on sequences says
so, and leaves every vector with exactly the specified elements and capacity;
`size <= capacity <= max` always.

Partial: `vsys.pre` excludes the calls listed at `pushPre` and `vunP`, which violate the
property: see `C25_insert_nothing_violated`, `C25_moved_from_violated`,
`C26_push_back_violated`, `C27_failed_allocation_violated`,
`C27_unsized_constructor_violated`. -/
theorem C25_vector_history_partial (mn mx : Nat) (hmm : mn ≤ mx)
    (ops : List (WOp (GOp V) (VBin V) (VCtor V) VFrom))
    (hp : PreHist (vsys V mn mx).spec (vsys V mn mx).pre (fun _ => none) ops) :
    ∃ w, runHist (vsys V mn mx).step (start V (Hdr V)) ops =
        some (w, (specHist (vsys V mn mx).spec (fun _ => none) ops).2) ∧
      ∀ i, match (specHist (vsys V mn mx).spec (fun _ => none) ops).1 i with
        | none => w.2 i = none
        | some a => ∃ o, w.2 i = some o ∧ Shows mn mx w.1 o a := by
  obtain ⟨w, h1, R⟩ := Sys.world_refines (Vec.laws mn mx hmm) ops hp
  refine ⟨w, h1, fun i => ?_⟩
  cases hs : (specHist (vsys V mn mx).spec (fun _ => none) ops).1 i with
  | none => exact R.absent hs
  | some a =>
    obtain ⟨o, ho, v⟩ := R.obj hs
    exact ⟨o, ho, shows_of v⟩

/-- C25: `at(v, i)` returns element `i` when `0 <= i < size` and throws otherwise, for an index
of any built-in or bounded type for which it compiles. -/
theorem C25_at {W : Nat} (hW : 64 ≤ W) {mn mx : Nat} {h : Heap V} {o : Hdr V} {a : VA V}
    (v : Shows mn mx h o a) (hr : (Rng.mk 0 mx).Wf W) {i : Arg} {x : Int} (hi : ArgHolds W i x)
    (hc : Vec.at' W mx h o i ≠ none) :
    (∀ hx : 0 ≤ x ∧ x < a.elems.length, Vec.at' W mx h o i = some (.ok (a.elems[x.toNat]'(by omega)))) ∧
    (¬ (0 ≤ x ∧ x < a.elems.length) → Vec.at' W mx h o i = some .exn) := by
  have hs := v.size
  have hb := v.bound
  have hsz := (holds_of_mem hW hr (x := (o.size : Int)) (by unfold Rng.Mem; simp only; omega)).1
  have p := pow_facts hW
  have h1 : Holds W (constB 1) 1 := constB_holds hW (by unfold Bounded.Rep; omega)
  have h0 : Holds W (constB 0) 0 := constB_holds hW (by unfold Bounded.Rep; omega)
  cases hm : minusTy W (Rng.mk 0 mx) (constB 1).rng with
  | none =>
    refine absurd ?_ hc
    have : minus W ((Rng.mk 0 mx).unchecked W o.size) (constB 1) = none := by
      unfold minusTy at hm
      unfold minus
      cases hn : negTy W (constB 1).rng with
      | none => unfold neg; rw [hn]; rfl
      | some nt =>
        rw [hn] at hm
        simp only [Option.bind_eq_bind, Option.bind_some] at hm
        have e : ((Rng.mk 0 mx).unchecked W o.size).rng = Rng.mk 0 mx := rfl
        simp [hm, e]
    simp only [Vec.at', this]
  | some r =>
    obtain ⟨last, e1, e2, e3, e4, e5⟩ := minus_value hW hsz.1 h1.1 hm hsz.2 h1.2
    have hl : Holds W last (o.size - 1) := ⟨by rw [e2]; exact e5, e3⟩
    have hcc : checkInRange W (.bounded (i.toB W)) (.bounded (constB 0)) (.bounded last) ≠ none := by
      intro hn; exact hc (by simp only [Vec.at', e1, hn])
    have sp := checkInRange_spec hW (v := .bounded (i.toB W)) (lo := .bounded (constB 0)) (hi := .bounded last)
      (toB_holds hW hi).1 h0 hl hcc trivial trivial
    refine ⟨fun hx => ?_, fun hx => ?_⟩
    · obtain ⟨c, c1, _, c3⟩ := sp.1 (by omega)
      simp only [Vec.at', e1, c1, c3.2]
      rw [v.elem x.toNat (by omega)]
    · simp only [Vec.at', e1, sp.2 (by omega)]

/-- `at` on a vector of three elements, with a signed built-in index. -/
example :
    let h : Heap Nat := ⟨upd (fun _ => none) 0 (some ⟨4, cells [7, 8, 9]⟩), 1⟩
    let o : Hdr Nat := { ptr := some 0, cap := 4, size := 3 }
    Vec.at' 64 100 h o (.builtin ⟨true, 32⟩ 2) = some (.ok 9) ∧
      Vec.at' 64 100 h o (.builtin ⟨true, 32⟩ 3) = some .exn ∧
      Vec.at' 64 100 h o (.builtin ⟨true, 32⟩ (-1)) = some .exn := by decide +kernel

/-- Shorthands for the concrete programs below. -/
abbrev lit (v : Nat) : Item Nat := ⟨v, false⟩
/-- An insertion at the end in which nothing throws. -/
abbrev push (v : Nat) : GOp Nat := .push (.lit v false) fun _ => false

/-- A history of any number of vectors of numbers. -/
abbrev Prog := List (WOp (GOp Nat) (VBin Nat) (VCtor Nat) VFrom)

/-- A history in the scope of `C25_vector_history_partial`: construction, growth, insertion
with and without reallocation, an element that throws, an allocation that fails, copy, move,
assignment to the moved-from vector, and destruction. -/
def sample : Prog :=
  [.make 0 (.sized [lit 1, lit 2] false), .un 0 (push 3), .un 0 (.insert 1 [lit 8, lit 9] fun _ => false),
   .un 0 (.insert 0 [lit 4, ⟨5, true⟩] fun _ => false), .un 0 (.append [lit 1, lit 1, lit 1, lit 1] fun _ => true),
   .makeFrom 1 0 (.copy (fun _ => false) false), .makeFrom 2 0 .move, .bin 0 1 (.copy (fun _ => false) 0 fun _ => false),
   .un 1 (.eraseIf (· < 3) id), .un 2 (.erase 1 3), .un 2 (.shrink fun _ => false), .bin 2 1 .swap, .drop 1]

example : PreHist (vsys Nat 0 100).spec (vsys Nat 0 100).pre (fun _ => none) sample := by decide +kernel

example : ((runHist (vsys Nat 0 100).step (start Nat (Hdr Nat)) sample).map fun r =>
    ((r.1.2 0).map fun o => readFrom (Vec.mem r.1.1 o).1 (Vec.mem r.1.1 o).2 0 o.size,
     (r.1.2 2).map fun o => readFrom (Vec.mem r.1.1 o).1 (Vec.mem r.1.1 o).2 0 o.size, r.2)) =
    some (some (some [1, 8, 9, 2, 3]), some (some [8, 9, 3]),
      [false, false, false, true, true, false, false, false, false, false, false, false, false]) := by
  decide +kernel

/-- C25 fails for `insert` of an empty range before the end when there is room: every element
from the position on is relocated onto itself. -/
theorem C25_insert_nothing_violated :
    runHist (vsys Nat 0 100).step (start Nat (Hdr Nat))
      [.make 0 (.room 4 false), .un 0 (push 1), .un 0 (push 2), .un 0 (.insert 1 [] fun _ => false)] = none := by
  rfl

/-- C25 fails for a vector that was moved from: `clear`, `push_back` and even `capacity()`
rely on a capacity that no longer belongs to it. -/
theorem C25_moved_from_violated :
    runHist (vsys Nat 0 100).step (start Nat (Hdr Nat))
      [.make 0 (.sized [lit 1] false), .makeFrom 1 0 .move, .un 0 .clear] = none ∧
    runHist (vsys Nat 0 100).step (start Nat (Hdr Nat))
      [.make 0 (.sized [lit 1] false), .makeFrom 1 0 .move, .un 0 (push 2)] = none ∧
    -- `stable_vector<T, 4>`: `push_back` constructs through a null pointer
    runHist (vsys Nat 4 4).step (start Nat (Hdr Nat))
      [.make 0 (.sized [lit 1] false), .makeFrom 1 0 .move, .un 0 (push 2)] = none := by
  exact ⟨rfl, rfl, rfl⟩

/-! ### C26 -/

/-- A vector of four elements in memory. -/
def heap4 : Heap Nat := ⟨upd (fun _ => none) 0 (some ⟨4, cells [1, 5, 6, 7]⟩), 1⟩
/-- Its header. -/
def vec4 : Hdr Nat := { ptr := some 0, cap := 4, size := 4 }

theorem inv4 : vinv 0 100 (by omega) heap4 vec4 (.live [1, 5, 6, 7] 4 false) :=
  ⟨rep_of ⟨.inr ⟨0, ⟨4, cells [1, 5, 6, 7]⟩, rfl, rfl, rfl, by decide, by decide⟩, rfl, rfl⟩ rfl rfl (by decide),
    by simp [vec4]⟩

/-- The hypotheses of `C26_growth_partial` and `C46_vector_erase` for that vector. -/
example : Fresh heap4 ∧ (0 ≠ 100) ∧ [2, 3] ≠ ([] : List Nat) ∧ ([1, 5, 6, 7].length + [2, 3].length ≤ 100 ∧ 2 * 4 ≤ 100) :=
  ⟨fun b hb => by
      have : 1 ≤ b := hb
      simp only [heap4]
      rw [upd_other _ _ (by omega)], by decide, by decide, by decide⟩

/-- C26: adding elements (`push_back`, `append`, `insert` at any position) to a vector with
elements `xs` and capacity `cap` succeeds, when no element throws and memory is available,
provided the new size fits in the present capacity, or in the maximum and the maximum is at
least twice the present capacity.

Partial: "provided the new size is at most the maximum" would be the property; see
`C26_push_back_violated` and `C26_append_violated`. -/
theorem C26_growth_partial {mn mx : Nat} {hmm : mn ≤ mx} {h : Heap V} (hf : Fresh h) {o : Hdr V}
    {xs : List V} {cap : Nat} {nul : Bool} (v : vinv mn mx hmm h o (.live xs cap nul)) (hr : mn ≠ mx)
    (src : List V) (k : Nat) (hk : k ≤ xs.length) (hne : src ≠ [])
    (hfit : xs.length + src.length ≤ cap ∨ (xs.length + src.length ≤ mx ∧ 2 * cap ≤ mx)) :
    (∃ h' o' cap', (vec V mn mx).insert h o k (src.map fun v => ⟨v, false⟩) (fun _ => false) = .ok (h', o') ∧
      Shows mn mx h' o' (.live (xs.take k ++ src ++ xs.drop k) cap' false)) ∧
    (∃ h' o' cap', (vec V mn mx).append h o (src.map fun v => ⟨v, false⟩) (fun _ => false) = .ok (h', o') ∧
      Shows mn mx h' o' (.live (xs ++ src) cap' false)) ∧
    (∀ x, src = [x] → ∃ h' o' cap', (vec V mn mx).pushBack h o (.lit x false) (fun _ => false) = .ok (h', o') ∧
      Shows mn mx h' o' (.live (xs ++ [x]) cap' false)) := by
  have hsrc : (src.map fun v => (⟨v, false⟩ : Item V)).map (·.val) = src := by
    rw [List.map_map]; simp [Function.comp_def]
  have hany : (src.map fun v => (⟨v, false⟩ : Item V)).any (·.throws) = false := by simp
  have hlen : 0 < src.length := List.length_pos_iff.2 hne
  have hrange : mn ≤ cap ∧ cap ≤ mx := v.1.view.range
  have hxl := v.1.2
  have ins : ∀ j, ∃ cap' , cap' ≠ 0 ∧ specInsert (vcfg mn mx) (xs, cap) j src true (fun _ => false) =
      ((xs.take j ++ src ++ xs.drop j, cap'), false) := by
    intro j
    have hs : specInsert (vcfg mn mx) (xs, cap) j src true (fun _ => false) =
      if xs.length + src.length ≤ cap then
        ((xs.take j ++ src ++ xs.drop j, cap), false)
      else if !(decide (mn ≠ mx)) || (decide (mn ≠ 0) && false) ||
        decide (mx < max (xs.length + src.length) (2 * cap)) || false || !true
      then ((xs, cap), true)
      else ((xs.take j ++ src ++ xs.drop j, max (xs.length + src.length) (2 * cap)), false) := by
        simp [specInsert, vcfg]
    rw [hs]
    by_cases hc : xs.length + src.length ≤ cap
    · rw [if_pos hc]; exact ⟨cap, by omega, rfl⟩
    · rw [if_neg hc]
      have : ¬ mx < max (xs.length + src.length) (2 * cap) := by omega
      rw [if_neg (by simp [hr, this])]
      exact ⟨_, by omega, rfl⟩
  have fin : ∀ {x : Out (Heap V × Hdr V)} {ys : List V} {cap' : Nat}, cap' ≠ 0 →
      (Vec.lawful mn mx hmm).Good h o x ((ys, cap'), false) →
      ∃ h' o' c, x = .ok (h', o') ∧ Shows mn mx h' o' (.live ys c false) := by
    intro x ys cap' h0 g
    obtain ⟨h', o', e, v', _⟩ := Vec.inv_good v g
    simp only [nulAfter, h0, if_false] at v'
    exact ⟨h', o', cap', e, shows_of v'⟩
  refine ⟨?_, ?_, ?_⟩
  · obtain ⟨c, c0, hs⟩ := ins k
    have g := good_step v.1 hf (.insert k (src.map fun v => ⟨v, false⟩) fun _ => false)
      ⟨hk, fun e => absurd (by simpa using e) hne⟩
    have e : GOp.spec (Vec.lawful (V := V) mn mx hmm).cfg (xs, cap) (.insert k (src.map fun v => ⟨v, false⟩) fun _ => false) =
        ((xs.take k ++ src ++ xs.drop k, c), false) := by
      simp only [GOp.spec, hsrc, hany]; exact hs
    rw [e] at g
    exact fin c0 g
  · obtain ⟨c, c0, hs⟩ := ins xs.length
    have g := good_step v.1 hf (.append (src.map fun v => ⟨v, false⟩) fun _ => false) (by
      intro hq; rw [Vec.cfg_eq] at hq; simp [vcfg, hr] at hq)
    have e : GOp.spec (Vec.lawful (V := V) mn mx hmm).cfg (xs, cap) (.append (src.map fun v => ⟨v, false⟩) fun _ => false) =
        ((xs ++ src, c), false) := by
      simp only [GOp.spec, hsrc, hany]
      refine hs.trans ?_
      simp
    rw [e] at g
    exact fin c0 g
  · intro x hx
    subst hx
    simp only [List.length_singleton] at hfit
    have g := good_step v.1 hf (.push (.lit x false) fun _ => false) (by
      intro _ _ _
      show max 1 (2 * cap) ≤ mx
      simp only at *
      omega)
    have e : GOp.spec (Vec.lawful (V := V) mn mx hmm).cfg (xs, cap) (.push (.lit x false) fun _ => false) =
        ((xs ++ [x], if xs.length < cap then cap else max 1 (2 * cap)), false) := by
      simp only [GOp.spec]
      have hs : specPush (Vec.lawful (V := V) mn mx hmm).cfg (xs, cap) x false (fun _ => false) =
        if mx = 0 then ((xs, cap), true)
        else if xs.length < cap then ((xs ++ [x], cap), false)
        else if !(decide (mn ≠ mx)) || (decide (mn ≠ 0) && false) || false || false then ((xs, cap), true)
        else ((xs ++ [x], max 1 (2 * cap)), false) := by simp [specPush, Vec.cfg_eq, vcfg]
      rw [hs, if_neg (by omega)]
      split
      · rfl
      · simp [hr]
    rw [e] at g
    exact fin (by split <;> omega) g

/-- C26 fails for `push_back`: `vector<int, 3>` cannot take a third element. -/
theorem C26_push_back_violated :
    (runHist (vsys Nat 0 3).step (start Nat (Hdr Nat))
      [.make 0 (.dflt false), .un 0 (push 1), .un 0 (push 2)]).isSome = true ∧
    runHist (vsys Nat 0 3).step (start Nat (Hdr Nat))
      [.make 0 (.dflt false), .un 0 (push 1), .un 0 (push 2), .un 0 (push 3)] = none := by
  exact ⟨rfl, rfl⟩

/-- C26 fails for `append` and `insert`: with two elements in `vector<int, 3>` one more throws,
although there is memory and no element throws. -/
theorem C26_append_violated :
    (runHist (vsys Nat 0 3).step (start Nat (Hdr Nat))
      [.make 0 (.sized [lit 1, lit 2] false), .un 0 (.append [lit 3] fun _ => false)]).map (·.2) = some [false, true] ∧
    (runHist (vsys Nat 0 3).step (start Nat (Hdr Nat))
      [.make 0 (.sized [lit 1, lit 2] false), .un 0 (.insert 0 [lit 3] fun _ => false)]).map (·.2) = some [false, true] := by
  exact ⟨rfl, rfl⟩

/-! ### C27 -/

/-- C27: through every history, with any element operation throwing and any allocation failing,
no slot is constructed twice, none is used or destroyed while raw, and nothing is released
twice, released with the wrong size or released with an element alive (`construct`, `destroy`,
`readCell`, `relocateAt` and `Heap.free` would make `runHist` fail); and at every moment:

* every allocated block belongs to exactly one vector, and has the size that vector says;
* in it exactly the slots `[0, size)` hold live elements;
* without any vector, nothing is allocated.

Partial: the histories of `vsys.pre`; see `C27_failed_allocation_violated` and
`C27_unsized_constructor_violated`. -/
theorem C27_lifetimes_partial (mn mx : Nat) (hmm : mn ≤ mx)
    (ops : List (WOp (GOp V) (VBin V) (VCtor V) VFrom))
    (hp : PreHist (vsys V mn mx).spec (vsys V mn mx).pre (fun _ => none) ops) :
    ∃ w, runHist (vsys V mn mx).step (start V (Hdr V)) ops =
        some (w, (specHist (vsys V mn mx).spec (fun _ => none) ops).2) ∧
      (∀ b B, w.1.blk b = some B → ∃ i o, w.2 i = some o ∧ o.ptr = some b ∧ B.cap = o.cap ∧ o.size ≤ B.cap ∧
        (∀ j t, w.2 j = some t → t.ptr = some b → j = i) ∧ ∀ k, (B.cell k).isSome ↔ k < o.size) ∧
      (∀ i o, w.2 i = some o → o.ptr = none → o.size = 0) ∧
      (∀ i o b, w.2 i = some o → o.ptr = some b → w.1.blk b ≠ none) ∧
      ((∀ i, w.2 i = none) → ∀ b, w.1.blk b = none) := by
  obtain ⟨w, h1, R⟩ := Sys.world_refines (Vec.laws mn mx hmm) ops hp
  have inv : ∀ i o, w.2 i = some o → ∃ a, vinv mn mx hmm w.1 o a := by
    intro i o ho
    have := R.same i
    rw [ho, Option.isSome_some] at this
    obtain ⟨a, ha⟩ := Option.isSome_iff_exists.1 this.symm
    exact ⟨a, R.good i o a ho ha⟩
  have own : ∀ b, w.1.blk b ≠ none → ∃ i o, w.2 i = some o ∧ o.ptr = some b := R.noLeak
  refine ⟨w, h1, ?_, ?_, ?_, ?_⟩
  · intro b B hb
    obtain ⟨i, o, ho, hob⟩ := own b (by rw [hb]; simp)
    obtain ⟨a, v⟩ := inv i o ho
    refine ⟨i, o, ho, hob, ?_⟩
    have uniq : ∀ j t, w.2 j = some t → t.ptr = some b → j = i := by
      intro j t hj ht
      apply Classical.byContradiction
      intro hne
      exact R.apart i j o t ho hj (fun e => hne e.symm) b hob ht
    cases a with
    | moved => rw [v.1] at hob; cases hob
    | live xs cap nul =>
      have hm : Vec.mem w.1 o = (cap, cells xs) := v.1.mem
      have hs : o.size = xs.length := v.1.1.2.2
      have hc : o.cap = cap := by
        rcases v.1.1.1 with ⟨q1, q2, q3⟩ | ⟨b', B', q1, q2, q3, q4, q5⟩
        · rw [q1] at hob; cases hob
        · rw [Vec.mem_some q1 q2] at hm
          have : B'.cap = cap := congrArg Prod.fst hm
          omega
      rw [Vec.mem_some hob hb] at hm
      have e1 : B.cap = cap := congrArg Prod.fst hm
      have e2 : B.cell = cells xs := congrArg Prod.snd hm
      refine ⟨by omega, by have := v.1.2; omega, uniq, ?_⟩
      intro k
      rw [e2, hs]
      simp [cells]
  · intro i o ho hn
    obtain ⟨a, v⟩ := inv i o ho
    cases a with
    | moved => exact v.2
    | live xs cap nul =>
      have hm : Vec.mem w.1 o = (cap, cells xs) := v.1.mem
      rw [Vec.mem_none hn] at hm
      have e1 : 0 = cap := congrArg Prod.fst hm
      have hs : o.size = xs.length := v.1.1.2.2
      have := v.1.2
      omega
  · intro i o b ho hb
    obtain ⟨a, v⟩ := inv i o ho
    exact (Vec.laws mn mx hmm).owned v hb
  · intro h b
    refine R.empty (fun i => ?_) b
    have := R.same i
    rw [h i] at this
    cases hx : (specHist (vsys V mn mx).spec (fun _ => none) ops).1 i with
    | none => rfl
    | some a => rw [hx] at this; cases this

/-- C27 fails when the allocation of an assignment of trivially copyable elements fails: the
block was already released, and the vector releases it again when it is destroyed. -/
theorem C27_failed_allocation_violated :
    (runHist (vsys Nat 0 100).step (start Nat (Hdr Nat))
      [.make 0 (.sized [lit 1] false), .un 0 (.assignTrivial [lit 1, lit 2] fun _ => true)]).map (·.2) =
        some [false, true] ∧
    runHist (vsys Nat 0 100).step (start Nat (Hdr Nat))
      [.make 0 (.sized [lit 1] false), .un 0 (.assignTrivial [lit 1, lit 2] fun _ => true), .drop 0] = none := by
  exact ⟨rfl, rfl⟩

/-- C27 fails when a vector is constructed from a range of unknown size and an element after
the first throws: the storage is released and the elements are never destroyed. -/
theorem C27_unsized_constructor_violated :
    runHist (vsys Nat 0 100).step (start Nat (Hdr Nat))
      [.make 0 (.unsized [lit 1, ⟨2, true⟩] fun _ => false)] = none := by
  rfl

/-! ### C46 -/

/-- C46: `erase(first, last)` removes exactly that subrange. (The returned position is `first`,
which now refers to the element that followed the subrange.) -/
theorem C46_vector_erase {mn mx : Nat} {hmm : mn ≤ mx} {h : Heap V} {o : Hdr V} {xs : List V} {cap : Nat}
    {nul : Bool} (v : vinv mn mx hmm h o (.live xs cap nul)) {i j : Nat} (hij : i ≤ j) (hj : j ≤ xs.length) :
    ∃ h' o', (vec V mn mx).erase h o i j = .ok (h', o') ∧
      Shows mn mx h' o' (.live (xs.take i ++ xs.drop j) cap (nulAfter cap nul cap)) ∧
      (∀ hi : j < xs.length, Vec.index h' o' i = some xs[j]) := by
  obtain ⟨h', o', e, v', _⟩ := Vec.inv_good v (good_erase v.1 hij hj)
  have sh := shows_of v'
  refine ⟨h', o', e, sh, fun hi => ?_⟩
  have := sh.elem i (by simp [VA.elems]; omega)
  rw [this]
  simp only [VA.elems]
  rw [List.getElem_append_right (by simp)]
  simp only [List.length_take, List.getElem_drop]
  congr 2
  omega

/-- C46: `erase_if` removes exactly the elements that satisfy the predicate and keeps the order
of the others.

Partial: the number it returns is not the number of removed elements, see
`C46_erase_if_count_violated`. -/
theorem C46_vector_erase_if_partial {mn mx : Nat} {hmm : mn ≤ mx} {h : Heap V} {o : Hdr V} {xs : List V} {cap : Nat}
    {nul : Bool} (v : vinv mn mx hmm h o (.live xs cap nul)) (p : V → Bool) (mv : V → V) :
    ∃ h' o' n, (vec V mn mx).eraseIf h o p mv = .ok ((h', o'), n) ∧
      Shows mn mx h' o' (.live (xs.filter fun v => !p v) cap (nulAfter cap nul cap)) := by
  obtain ⟨h', o', e, r, f, pr⟩ := good_eraseIf v.1 p mv
  obtain ⟨h2, o2, e2, v', _⟩ := Vec.inv_good (s := ((xs.filter fun v => !p v, cap), false))
    (x := .ok (h', o')) v ⟨h', o', rfl, r, f, pr⟩
  cases e2
  exact ⟨h', o', _, e, shows_of v'⟩

/-- C46: `erase_if` returns how many of the elements after the first removed one were kept.
For `{1, 5, 6, 7}` and "less than 2" it returns 3, having removed one element. -/
theorem C46_erase_if_count_violated :
    ∃ (h : Heap Nat) (o : Hdr Nat) (xs : List Nat) (p : Nat → Bool) (r : Heap Nat × Hdr Nat) (n : Nat),
      vinv 0 100 (by omega) h o (.live xs 4 false) ∧ (vec Nat 0 100).eraseIf h o p id = .ok (r, n) ∧
      n ≠ (xs.filter p).length := by
  exact ⟨heap4, vec4, [1, 5, 6, 7], (· < 2), _, 3, inv4, rfl, by decide⟩

end Verif.Containers
