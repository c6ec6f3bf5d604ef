import Verif.Algo.Order
import Verif.Algo.Mem

/-!
# Decision trees that sort a fixed number of elements

The routines of `sort_exactly_2.cpp` to `sort_exactly_5.cpp` are trees of comparisons with
swaps, rotations or relocations at the leaves. They are represented as such trees
(`SortExactly.lean`); this file gives their meaning on memory, and a decision procedure for
"this tree sorts (stably)" with its soundness for every strict weak order, every value and
every placement of the elements in memory.

Elements are named by the numbers of the parameters (`x0` is 0). In the in-place versions of
`n` elements the name `n` is the local storage of `rotate_one`; in the relocating versions
the names from `n` on are the destinations.
-/

namespace Verif.Algo

variable {α β : Type}

/-- The writes of a leaf. -/
inductive Prim where
  | reloc (dst src : Nat)
  | swap (i j : Nat)
  deriving DecidableEq, Repr

/-- `std::ranges::swap(xi, xj)` -/
abbrev swap (i j : Nat) : List Prim := [.swap i j]

/-- The fold of `rotate_one` (`rotate_one.cpp` 18-19), `ref` being the variable of that name. -/
def rotateLoop (storage ref : Nat) : List Nat → List Prim
  | [] => [.reloc ref storage]
  | x :: xs => .reloc ref x :: rotateLoop storage x xs

/-- `rotate_one` (`rotate_one.cpp` 14-20). -/
def rotateOne (storage arg : Nat) (args : List Nat) : List Prim :=
  .reloc storage arg :: rotateLoop storage arg args

/-- `relocate_in_order` (`relocate_in_order.cpp`). -/
def relocateInOrder (out : Nat) : List Nat → List Prim
  | [] => []
  | x :: xs => .reloc out x :: relocateInOrder (out + 1) xs

/-- Nested `if (compare(xi, xj)) { yes } else { no }`. -/
inductive Tree where
  | done (acts : List Prim)
  | ask (i j : Nat) (yes no : Tree)

/-- One write; `ad` says where the named element is in memory. -/
def Prim.run (ad : Nat → Nat) (m : Mem α) : Prim → Option (Mem α)
  | .reloc d s => m.relocateAt (ad d) (ad s)
  | .swap i j => m.swapAt (ad i) (ad j)

/-- A sequence of writes. -/
def runPrims (ad : Nat → Nat) (m : Mem α) : List Prim → Option (Mem α)
  | [] => some m
  | p :: ps => do
    let m ← p.run ad m
    runPrims ad m ps

/-- Running a tree: comparisons read live elements. -/
def Tree.run (lt : α → α → Bool) (ad : Nat → Nat) (m : Mem α) : Tree → Option (Mem α)
  | .done ps => runPrims ad m ps
  | .ask i j yes no => do
    let x ← m (ad i)
    let y ← m (ad j)
    if lt x y then yes.run lt ad m else no.run lt ad m

/-! ## The decision procedure -/

/-- The outcome of a comparison on the way to a leaf. -/
abbrev Fact := Nat × Nat × Bool

/-- "`x_p` is not greater than `x_q`" follows from the facts. -/
def leBy (facts : List Fact) : Nat → Nat → Nat → Bool
  | 0, p, q => p == q
  | n + 1, p, q => p == q || facts.any fun f =>
      if f.2.2 then f.1 == p && leBy facts n f.2.1 q else f.2.1 == p && leBy facts n f.1 q

/-- "`x_p` is less than `x_q`" follows from the facts. -/
def ltBy (facts : List Fact) (n p q : Nat) : Bool :=
  facts.any fun f => f.2.2 && leBy facts n p f.1 && leBy facts n f.2.1 q

/-- Every pair in a list, in order. -/
def allPairs (r : Nat → Nat → Bool) : List Nat → Bool
  | [] => true
  | x :: xs => xs.all (r x) && allPairs r xs

/-- Before a leaf: element `i` is in cell `i`, the other cells are raw. -/
def symbolic (n : Nat) : Mem Nat := fun i => if i < n then some i else none

/-- The names mentioned are below `k`. -/
def Prim.below (k : Nat) : Prim → Bool
  | .reloc d s => decide (d < k) && decide (s < k)
  | .swap i j => decide (i < k) && decide (j < k)

/-- The elements found at the destinations `out .. out + n - 1`. -/
def resultOf (m : Mem Nat) (out n : Nat) : List Nat := (List.range n).map fun i => (m (out + i)).getD 0

/-- What has to hold at a leaf reached with the given facts; `k` bounds the names used. -/
def checkLeaf (stable : Bool) (n k out : Nat) (facts : List Fact) (ps : List Prim) : Bool :=
  (facts.any fun f => f.2.2 && leBy facts n f.2.1 f.1) ||
  (ps.all (Prim.below k) &&
  match runPrims id (symbolic n) ps with
  | none => false
  | some m =>
    ((List.range k).all fun i => (m i).isSome == (decide (out ≤ i) && decide (i < out + n))) &&
    decide ((resultOf m out n).Perm (List.range n)) &&
    allPairs (fun p q => leBy facts n p q && (!stable || ltBy facts n p q || decide (p < q))) (resultOf m out n))

/-- The tree sorts `n` elements into the cells `out .. out + n - 1`. -/
def Tree.check (stable : Bool) (n k out : Nat) (facts : List Fact) : Tree → Bool
  | .done ps => checkLeaf stable n k out facts ps
  | .ask i j yes no =>
    decide (i < n) && decide (j < n) && yes.check stable n k out ((i, j, true) :: facts) && no.check stable n k out ((i, j, false) :: facts)

/-! ## Soundness -/

/-- The facts are true of the elements. -/
def FactsOf (lt : α → α → Bool) (a : Nat → α) (facts : List Fact) : Prop := ∀ f ∈ facts, lt (a f.1) (a f.2.1) = f.2.2

theorem leBy_sound {lt : α → α → Bool} (h : StrictWeak lt) {a : Nat → α} {facts : List Fact} (hf : FactsOf lt a facts) :
    ∀ (n : Nat) {p q : Nat}, leBy facts n p q = true → lt (a q) (a p) = false
  | 0, p, q, hl => by
    simp only [leBy, beq_iff_eq] at hl
    subst hl; exact h.irrefl _
  | n + 1, p, q, hl => by
    simp only [leBy, Bool.or_eq_true, beq_iff_eq, List.any_eq_true] at hl
    rcases hl with rfl | ⟨f, hm, hl⟩
    · exact h.irrefl _
    · have hfact := hf f hm
      by_cases hb : f.2.2 = true
      · rw [if_pos hb, Bool.and_eq_true, beq_iff_eq] at hl
        rw [hb] at hfact
        rw [← hl.1]
        exact h.negTrans (h.asymm hfact) (leBy_sound h hf n hl.2)
      · rw [if_neg hb, Bool.and_eq_true, beq_iff_eq] at hl
        rw [Bool.not_eq_true] at hb
        rw [hb] at hfact
        rw [← hl.1]
        exact h.negTrans hfact (leBy_sound h hf n hl.2)

theorem ltBy_sound {lt : α → α → Bool} (h : StrictWeak lt) {a : Nat → α} {facts : List Fact} (hf : FactsOf lt a facts)
    {n p q : Nat} (hl : ltBy facts n p q = true) : lt (a p) (a q) = true := by
  simp only [ltBy, List.any_eq_true, Bool.and_eq_true] at hl
  obtain ⟨f, hm, ⟨hb, h1⟩, h2⟩ := hl
  have hfact := hf f hm
  rw [hb] at hfact
  exact h.lt_of_lt_of_le (h.lt_of_le_of_lt (leBy_sound h hf n h1) hfact) (leBy_sound h hf n h2)

theorem allPairs_sound {r : Nat → Nat → Bool} : ∀ {xs : List Nat}, allPairs r xs = true → xs.Pairwise fun p q => r p q = true
  | [], _ => List.Pairwise.nil
  | x :: xs, h => by
    simp only [allPairs, Bool.and_eq_true, List.all_eq_true] at h
    exact List.pairwise_cons.2 ⟨h.1, allPairs_sound h.2⟩

/-- `M` is a copy of the symbolic memory `m`: names below `k` are placed by `ad`, element `i`
has the value `a i`. -/
def Sim (ad : Nat → Nat) (a : Nat → α) (k : Nat) (m : Mem Nat) (M : Mem α) : Prop := ∀ i, i < k → M (ad i) = (m i).map a

theorem Prim.sim {ad : Nat → Nat} {a : Nat → α} {k : Nat} (hinj : ∀ i j, i < k → j < k → ad i = ad j → i = j) {p : Prim}
    (hb : p.below k = true) {m m' : Mem Nat} {M : Mem α} (hs : Sim ad a k m M) (hr : p.run id m = some m') :
    ∃ M', p.run ad M = some M' ∧ Sim ad a k m' M' ∧ Mem.SameOff M M' (fun x => ∃ i, i < k ∧ x = ad i) := by
  cases p with
  | reloc d s =>
    simp only [Prim.below, Bool.and_eq_true, decide_eq_true_eq] at hb
    simp only [Prim.run, id, Mem.relocateAt] at hr ⊢
    cases hms : m s with
    | none => rw [hms] at hr; cases hr
    | some v =>
      cases hmd : m d with
      | some w => rw [hms, hmd] at hr; cases hr
      | none =>
        rw [hms, hmd] at hr
        injection hr with hr
        subst hr
        have h1 := hs s hb.2
        have h2 := hs d hb.1
        rw [hms] at h1; rw [hmd] at h2
        simp only [Option.map_some, Option.map_none] at h1 h2
        rw [h1, h2]
        refine ⟨_, rfl, ?_, ?_⟩
        · intro i hi
          by_cases his : i = s
          · subst his; simp
          · have : ad i ≠ ad s := fun he => his (hinj i s hi hb.2 he)
            rw [upd_other _ _ this, upd_other _ _ his]
            by_cases hid : i = d
            · subst hid; simp
            · have : ad i ≠ ad d := fun he => hid (hinj i d hi hb.1 he)
              rw [upd_other _ _ this, upd_other _ _ hid]
              exact hs i hi
        · intro x hx
          have e1 : x ≠ ad s := fun he => hx ⟨s, hb.2, he⟩
          have e2 : x ≠ ad d := fun he => hx ⟨d, hb.1, he⟩
          rw [upd_other _ _ e1, upd_other _ _ e2]
  | swap p q =>
    simp only [Prim.below, Bool.and_eq_true, decide_eq_true_eq] at hb
    simp only [Prim.run, id, Mem.swapAt] at hr ⊢
    cases hmp : m p with
    | none => rw [hmp] at hr; cases hr
    | some v =>
      cases hmq : m q with
      | none => rw [hmp, hmq] at hr; cases hr
      | some w =>
        rw [hmp, hmq] at hr
        injection hr with hr
        subst hr
        have h1 := hs p hb.1
        have h2 := hs q hb.2
        rw [hmp] at h1; rw [hmq] at h2
        simp only [Option.map_some] at h1 h2
        rw [h1, h2]
        refine ⟨_, rfl, ?_, ?_⟩
        · intro i hi
          by_cases his : i = q
          · subst his; simp
          · have : ad i ≠ ad q := fun he => his (hinj i q hi hb.2 he)
            rw [upd_other _ _ this, upd_other _ _ his]
            by_cases hid : i = p
            · subst hid; simp
            · have : ad i ≠ ad p := fun he => hid (hinj i p hi hb.1 he)
              rw [upd_other _ _ this, upd_other _ _ hid]
              exact hs i hi
        · intro x hx
          have e1 : x ≠ ad q := fun he => hx ⟨q, hb.2, he⟩
          have e2 : x ≠ ad p := fun he => hx ⟨p, hb.1, he⟩
          rw [upd_other _ _ e1, upd_other _ _ e2]

theorem runPrims_sim {ad : Nat → Nat} {a : Nat → α} {k : Nat} (hinj : ∀ i j, i < k → j < k → ad i = ad j → i = j) :
    ∀ {ps : List Prim} (_ : ps.all (Prim.below k) = true) {m m' : Mem Nat} {M : Mem α} (_ : Sim ad a k m M) (_ : runPrims id m ps = some m'),
    ∃ M', runPrims ad M ps = some M' ∧ Sim ad a k m' M' ∧ Mem.SameOff M M' (fun x => ∃ i, i < k ∧ x = ad i) := by
  intro ps
  induction ps with
  | nil =>
    intro _ m m' M hs hr
    injection hr with hr
    subst hr
    exact ⟨M, rfl, hs, fun _ _ => rfl⟩
  | cons p ps ih =>
    intro hb m m' M hs hr
    simp only [List.all_cons, Bool.and_eq_true] at hb
    rw [runPrims] at hr
    cases h1 : p.run id m with
    | none => rw [h1] at hr; cases hr
    | some m1 =>
      rw [h1] at hr
      obtain ⟨M1, e1, s1, f1⟩ := Prim.sim hinj hb.1 hs h1
      obtain ⟨M2, e2, s2, f2⟩ := ih hb.2 s1 hr
      exact ⟨M2, by rw [runPrims, e1]; exact e2, s2, f1.trans f2⟩

/-- The cells of the elements before a routine runs: the named elements are live, the other
named cells raw. -/
structure Placed (ad : Nat → Nat) (a : Nat → α) (n k : Nat) (M : Mem α) : Prop where
  inj : ∀ i j, i < k → j < k → ad i = ad j → i = j
  live : ∀ i, i < n → M (ad i) = some (a i)
  raw : ∀ i, n ≤ i → i < k → M (ad i) = none
  le : n ≤ k

/-- What a sorting routine achieves: the elements are in order in the cells named from `out`
on, the other named cells are raw, everything else is as before. -/
structure SortedInto (stable : Bool) (lt : α → α → Bool) (ad : Nat → Nat) (a : Nat → α) (n k out : Nat) (M M' : Mem α) : Prop where
  result : ∃ ys : List α, ys.length = n ∧ (∀ i (h : i < ys.length), M' (ad (out + i)) = some ys[i]) ∧
    IsSort lt ((List.range n).map a) ys ∧ (stable = true → IsStableSort lt ((List.range n).map a) ys)
  raw : ∀ i, i < k → ¬ (out ≤ i ∧ i < out + n) → M' (ad i) = none
  frame : Mem.SameOff M M' (fun x => ∃ i, i < k ∧ x = ad i)

theorem checkLeaf_sound {stable : Bool} {n k out : Nat} (hout : out + n ≤ k) {lt : α → α → Bool} (h : StrictWeak lt) {ad : Nat → Nat} {a : Nat → α}
    {facts : List Fact} (hf : FactsOf lt a facts) {M : Mem α} (hp : Placed ad a n k M) {ps : List Prim}
    (hc : checkLeaf stable n k out facts ps = true) :
    ∃ M', runPrims ad M ps = some M' ∧ SortedInto stable lt ad a n k out M M' := by
  rw [checkLeaf, Bool.or_eq_true] at hc
  rcases hc with hc | hc
  · exfalso
    simp only [List.any_eq_true, Bool.and_eq_true] at hc
    obtain ⟨f, hm, hb, hl⟩ := hc
    have h1 := hf f hm
    have h2 := leBy_sound h hf n hl
    rw [hb] at h1; rw [h1] at h2; cases h2
  rw [Bool.and_eq_true] at hc
  obtain ⟨hb, hc⟩ := hc
  cases hr : runPrims id (symbolic n) ps with
  | none => rw [hr] at hc; cases hc
  | some m' =>
    rw [hr] at hc
    simp only [Bool.and_eq_true, decide_eq_true_eq] at hc
    obtain ⟨⟨hlive, hperm⟩, hpairs⟩ := hc
    have hsim : Sim ad a k (symbolic n) M := by
      intro i hi
      by_cases hin : i < n
      · rw [hp.live i hin]; simp [symbolic, hin]
      · rw [hp.raw i (by omega) hi]; simp [symbolic, hin]
    obtain ⟨M', e, s, f⟩ := runPrims_sim hp.inj hb hsim hr
    refine ⟨M', e, ?_, ?_, f⟩
    · refine ⟨(resultOf m' out n).map a, by simp [resultOf], ?_, ?_, ?_⟩
      · intro i hi
        simp only [resultOf, List.length_map, List.length_range] at hi
        have := s (out + i) (by omega)
        rw [this]
        have hl := List.all_eq_true.1 hlive (out + i) (by simp; omega)
        cases hm : m' (out + i) with
        | none =>
          rw [hm] at hl
          simp at hl
          omega
        | some v => simp [resultOf, hm]
      · refine ⟨?_, hperm.map a⟩
        rw [Sorted, List.pairwise_map]
        refine (allPairs_sound hpairs).imp fun hr => ?_
        rw [Bool.and_eq_true] at hr
        exact leBy_sound h hf n hr.1
      · intro hst
        refine stable_of_indices h a List.pairwise_lt_range hperm ?_
        refine (allPairs_sound hpairs).imp fun hr => ?_
        rw [Bool.and_eq_true, hst] at hr
        simp only [Bool.not_true, Bool.false_or, Bool.or_eq_true, decide_eq_true_eq] at hr
        exact ⟨leBy_sound h hf n hr.1, hr.2.imp (ltBy_sound h hf) id⟩
    · intro i hi hno
      rw [s i hi]
      have hl := List.all_eq_true.1 hlive i (by simpa using hi)
      cases hm : m' i with
      | none => rfl
      | some v =>
        rw [hm] at hl
        simp at hl
        omega

/-- A tree that passes the check sorts, whatever the values, the order and the placement. -/
theorem Tree.check_sound {stable : Bool} {n k out : Nat} (hout : out + n ≤ k) {lt : α → α → Bool} (h : StrictWeak lt) {ad : Nat → Nat} {a : Nat → α}
    {M : Mem α} (hp : Placed ad a n k M) : ∀ {t : Tree} {facts : List Fact} (_ : FactsOf lt a facts) (_ : t.check stable n k out facts = true),
    ∃ M', t.run lt ad M = some M' ∧ SortedInto stable lt ad a n k out M M' := by
  intro t
  induction t with
  | done ps => intro facts hf hc; exact checkLeaf_sound hout h hf hp hc
  | ask i j yes no ihy ihn =>
    intro facts hf hc
    simp only [Tree.check, Bool.and_eq_true, decide_eq_true_eq] at hc
    obtain ⟨⟨⟨hi, hj⟩, hy⟩, hn⟩ := hc
    simp only [Tree.run, hp.live i hi, hp.live j hj, Option.bind_eq_bind, Option.bind_some]
    by_cases hlt : lt (a i) (a j) = true
    · rw [if_pos hlt]
      refine ihy (fun f hm => ?_) hy
      rcases List.mem_cons.1 hm with rfl | hm
      · exact hlt
      · exact hf f hm
    · rw [if_neg hlt]
      refine ihn (fun f hm => ?_) hn
      rcases List.mem_cons.1 hm with rfl | hm
      · exact Bool.not_eq_true _ ▸ hlt
      · exact hf f hm

end Verif.Algo
