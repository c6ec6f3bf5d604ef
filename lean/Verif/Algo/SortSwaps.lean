import Verif.Algo.SwapProgs
import Mathlib.Tactic.IntervalCases

/-!
# Sorting a fixed number of elements when a swap throws (property C92)

The routines in place of `sort_exactly_2.cpp` to `sort_exactly_5.cpp`, with a comparison that may have state, answer as it likes and throw, and with
swaps of elements that may throw. Relocations do not throw (`rotate_one` needs elements that are relocatable without exceptions).
-/

namespace Verif.Algo.Swapping

open Verif Mem

variable {α τ : Type}

/-- The writes of a leaf; `j` is the number of swaps so far. -/
def runPrimsX (sw : Swaps α) (ad : Nat → Nat) : Nat → Mem α → List Prim → Out (Mem α)
  | _, m, [] => .ok m
  | j, m, .reloc d s :: ps =>
    match m.relocateAt (ad d) (ad s) with
    | none => .ub
    | some m => runPrimsX sw ad j m ps
  | j, m, .swap a b :: ps => (swapX (sw j) m (ad a) (ad b)).andThen fun m => runPrimsX sw ad (j + 1) m ps

/-- A tree of comparisons (`sort_exactly_2.cpp` to `sort_exactly_5.cpp`); `t` is the state of the comparison. -/
def treeX (f : τ → α × α → Option (Bool × τ)) (sw : Swaps α) (ad : Nat → Nat) (m : Mem α) : τ → Tree → SProg.Ended α Unit
  | _, .done ps =>
    match runPrimsX sw ad 0 m ps with
    | .ok m' => .returned () m'
    | .exn m' => .swapped m'
    | .ub => .ub
  | t, .ask i j yes no =>
    match m (ad i), m (ad j) with
    | some x, some y =>
      match f t (x, y) with
      | none => .asked m
      | some (true, t') => treeX f sw ad m t' yes
      | some (false, t') => treeX f sw ad m t' no
    | _, _ => .ub

/-- `sort_exactly_n_in_place` (`sort_exactly_n.cpp` 29-33), and so `sort_exactly_n` (44-53) of elements that are not cheaply sortable or of five elements;
the other branch of it does not swap. -/
def sortExactlyInPlaceX (f : τ → α × α → Option (Bool × τ)) (sw : Swaps α) (t : τ) (m : Mem α) (it n temp : Nat) : SProg.Ended α Unit :=
  match inPlaceTree n with
  | none => .ub
  | some tree => treeX f sw (inPlaceAt it n temp) m t tree

/-! ## What a tree leaves if a swap throws -/

/-- If this is a swap, it is of two elements and all of them are in their places in some order. -/
def swapWhole (n k : Nat) (m : Mem Nat) : Prim → Bool
  | .reloc .. => true
  | .swap a b => decide (a < n) && decide (b < n) && ((List.range k).all fun i => (m i).isSome == decide (i < n)) && decide ((resultOf m 0 n).Perm (List.range n))

/-- The same for all writes of a leaf. -/
def swapsWhole (n k : Nat) (m : Mem Nat) : List Prim → Bool
  | [] => true
  | p :: ps => swapWhole n k m p &&
    match p.run id m with
    | none => true
    | some m' => swapsWhole n k m' ps

/-- The same for all leaves. -/
def treeWhole (n k : Nat) : Tree → Bool
  | .done ps => swapsWhole n k (symbolic n) ps
  | .ask _ _ yes no => treeWhole n k yes && treeWhole n k no

theorem inPlaceTree_whole {n : Nat} {t : Tree} (ht : inPlaceTree n = some t) : treeWhole n (n + 1) t = true := by
  match n, ht with
  | 1, ht => cases ht; decide +kernel
  | 2, ht => cases ht; decide +kernel
  | 3, ht => cases ht; decide +kernel
  | 4, ht => cases ht; decide +kernel
  | 5, ht => cases ht; decide +kernel

/-- Two of the elements that are in the cells named from 0 on, in some order, have become what a swap left. -/
def TornInto (sw : Swaps α) (ad : Nat → Nat) (a : Nat → α) (n k : Nat) (M M' : Mem α) : Prop :=
  ∃ M0 l x y i j, MovedInto ad a n k 0 M M0 ∧ sw l = some (x, y) ∧ i < n ∧ j < n ∧ M' = upd (upd M0 (ad i) (some x)) (ad j) (some y)

theorem runPrimsX_spec {n k : Nat} (hn : n ≤ k) {ad : Nat → Nat} {a : Nat → α} (sw : Swaps α) (hinj : ∀ i j, i < k → j < k → ad i = ad j → i = j) {M : Mem α} :
    ∀ {ps : List Prim} (_ : ps.all (Prim.below k) = true) {m : Mem Nat} {M1 : Mem α} (l : Nat) (_ : Sim ad a k m M1) (_ : Mem.SameOff M M1 (fun x => ∃ i, i < k ∧ x = ad i))
      (_ : swapsWhole n k m ps = true),
    match runPrimsX sw ad l M1 ps with
    | .ok M' => runPrims ad M1 ps = some M'
    | .exn M' => TornInto sw ad a n k M M'
    | .ub => runPrims ad M1 ps = none := by
  intro ps
  induction ps with
  | nil => intro _ m M1 l _ _ _; rfl
  | cons p ps ih =>
    intro hb m M1 l hs ho hw
    simp only [List.all_cons, Bool.and_eq_true] at hb
    rw [swapsWhole, Bool.and_eq_true] at hw
    obtain ⟨hw1, hw2⟩ := hw
    have next : ∀ (l' : Nat) (M2 : Mem α), p.run ad M1 = some M2 →
        match runPrimsX sw ad l' M2 ps with
        | .ok M' => runPrims ad M1 (p :: ps) = some M'
        | .exn M' => TornInto sw ad a n k M M'
        | .ub => runPrims ad M1 (p :: ps) = none := by
      intro l' M2 e2
      cases h1 : p.run id m with
      | none => rw [Prim.sim_none hb.1 hs h1] at e2; cases e2
      | some m1 =>
        obtain ⟨M2', e1, s1, o1⟩ := Prim.sim hinj hb.1 hs h1
        rw [e2] at e1
        cases e1
        rw [h1] at hw2
        have := ih hb.2 l' s1 (ho.trans o1) hw2
        have er : runPrims ad M1 (p :: ps) = runPrims ad M2 ps := by rw [runPrims, e2]; rfl
        rw [er]
        exact this
    cases p with
    | reloc d s =>
      rw [runPrimsX]
      cases e : M1.relocateAt (ad d) (ad s) with
      | none =>
        show runPrims ad M1 _ = none
        rw [runPrims, Prim.run, e]
        rfl
      | some M2 => exact next l M2 e
    | swap i j =>
      simp only [swapWhole, Bool.and_eq_true, decide_eq_true_eq] at hw1
      obtain ⟨⟨⟨hi, hj⟩, hlive⟩, hperm⟩ := hw1
      have live : ∀ i, i < k → (m i).isSome = decide (i < n) := fun i hi => by
        have := List.all_eq_true.1 hlive i (by simpa using hi)
        simpa using this
      obtain ⟨x, hx⟩ := Option.isSome_iff_exists.1 (by rw [live i (by omega)]; simpa using hi)
      obtain ⟨y, hy⟩ := Option.isSome_iff_exists.1 (by rw [live j (by omega)]; simpa using hj)
      have hX : M1 (ad i) = some (a x) := by rw [hs i (by omega), hx]; rfl
      have hY : M1 (ad j) = some (a y) := by rw [hs j (by omega), hy]; rfl
      rw [runPrimsX]
      cases hsw : sw l with
      | none =>
        have e : swapX (sw l) M1 (ad i) (ad j) = .ok (upd (upd M1 (ad i) (some (a y))) (ad j) (some (a x))) := by
          simp only [swapX, hX, hY, hsw]
        rw [← hsw, e]
        exact next (l + 1) _ (by simp only [Prim.run, Mem.swapAt, hX, hY])
      | some w =>
        have e : swapX (sw l) M1 (ad i) (ad j) = .exn (upd (upd M1 (ad i) (some w.1)) (ad j) (some w.2)) := by
          simp only [swapX, hX, hY, hsw]
        rw [← hsw, e]
        refine ⟨M1, l, w.1, w.2, i, j, ⟨⟨(resultOf m 0 n).map a, by simp [resultOf], ?_, hperm.map a⟩, ?_, ho⟩, hsw, hi, hj, rfl⟩
        · intro i hi
          simp only [resultOf, List.length_map, List.length_range] at hi
          rw [hs (0 + i) (by omega)]
          obtain ⟨v, hv⟩ := Option.isSome_iff_exists.1 (by rw [live (0 + i) (by omega)]; simpa using hi)
          simp only [Nat.zero_add] at hv
          simp [resultOf, hv]
        · intro i hi hno
          rw [hs i hi]
          have hl := live i hi
          rw [decide_eq_false (by omega)] at hl
          cases hm : m i with
          | none => rfl
          | some v => rw [hm] at hl; cases hl

theorem treeX_spec {n k : Nat} {ad : Nat → Nat} {a : Nat → α} {M : Mem α} (hp : Placed ad a n k M) (f : τ → α × α → Option (Bool × τ)) (sw : Swaps α) :
    ∀ {tree : Tree} (t : τ), tree.moves true n k 0 = true → treeWhole n k tree = true →
    match treeX f sw ad M t tree with
    | .returned _ M' => (Ask.exec f t (tree.runA ad M)).1 = .returned (some M') ∧ MovedInto ad a n k 0 M M'
    | .asked M' => M' = M ∧ ∃ t q, f t q = none
    | .swapped M' => TornInto sw ad a n k M M'
    | .ub => False := by
  intro tree
  induction tree with
  | done ps =>
    intro t hm hw
    obtain ⟨h1, h2⟩ := movesLeaf_sound (by have := hp.le; omega) hp hm
    have hsim : Sim ad a k (symbolic n) M := by
      intro i hi
      by_cases hin : i < n
      · rw [hp.live i hin]; simp [symbolic, hin]
      · rw [hp.raw i (by omega) hi]; simp [symbolic, hin]
    rw [Tree.moves, movesLeaf, Bool.and_eq_true] at hm
    have key := runPrimsX_spec hp.le sw hp.inj (M := M) hm.1 0 hsim (fun _ _ => rfl) hw
    rw [treeX]
    cases e : runPrimsX sw ad 0 M ps with
    | ok M' =>
      rw [e] at key
      refine ⟨?_, h2 M' key⟩
      rw [Tree.runA, key]
      rfl
    | exn M' => rw [e] at key; exact key
    | ub => rw [e] at key; exact h1 rfl key
  | ask i j yes no ihy ihn =>
    intro t hm hw
    simp only [Tree.moves, Bool.and_eq_true, decide_eq_true_eq] at hm
    obtain ⟨⟨⟨hi, hj⟩, hy⟩, hn⟩ := hm
    rw [treeWhole, Bool.and_eq_true] at hw
    have er : Tree.runA ad M (.ask i j yes no) = Ask.ask M (a i, a j) fun b => if b then yes.runA ad M else no.runA ad M := by
      rw [Tree.runA, hp.live i hi, hp.live j hj]
      rfl
    rw [er, Ask.exec, treeX, hp.live i hi, hp.live j hj]
    dsimp only
    match hf : f t (a i, a j) with
    | none => exact ⟨rfl, _, _, hf⟩
    | some (true, t') => exact ihy t' hy hw.1
    | some (false, t') => exact ihn t' hn hw.2

theorem TornInto.disturbed {sw : Swaps α} {m m' : Mem α} {first temp n : Nat} {xs : List α} {ad : Nat → Nat} (hp : Positions first temp n xs.length ad) (hs : m.Seg first xs)
    (ht : m temp = none) {d : α} (h : TornInto sw ad (fun i => xs.getD (ad i - first) d) n (n + 1) m m') : Disturbed sw first xs m m' := by
  obtain ⟨M0, l, x, y, i, j, hm, hsw, hi, hj, rfl⟩ := h
  have sh := hm.shuffled hp hs ht
  obtain ⟨ys, py, sy⟩ := sh.perm xs rfl hs
  have hl := py.length_eq
  have h1 := hp.lt i hi
  have h2 := hp.lt j hj
  refine ⟨l, x, y, ys, ad i - first, ad j - first, hsw, py, by omega, by omega, fun c hc => ?_, fun c hc => ?_⟩
  · simp only [List.length_set] at hc
    by_cases e1 : c = ad j - first
    · subst e1
      rw [show first + (ad j - first) = ad j by omega, upd_same]
      simp
    · rw [upd_other _ _ (by omega), List.getElem_set_ne (by omega)]
      by_cases e2 : c = ad i - first
      · subst e2
        rw [show first + (ad i - first) = ad i by omega, upd_same]
        simp
      · rw [upd_other _ _ (by omega), List.getElem_set_ne (by omega)]
        exact sy c hc
  · rw [upd_other _ _ (by rintro rfl; exact hc ⟨by omega, by omega⟩), upd_other _ _ (by rintro rfl; exact hc ⟨by omega, by omega⟩)]
    exact sh.rest c hc

/-- **C92**, `sort_exactly_n_in_place`: whatever the comparison answers, wherever it or a swap throws: nothing undefined happens. If the comparison throws,
nothing has been moved. If a swap throws, the elements are in some order in the range and two of them are what that swap has left. Otherwise the
elements are in some order, which is the stable order if the comparison is that of a strict weak order. Nothing else changes. -/
theorem C92_sort_exactly (f : τ → α × α → Option (Bool × τ)) (sw : Swaps α) (t : τ) {m : Mem α} {xs : List α} {it temp : Nat} (hs : m.Seg it xs) (ht : m temp = none)
    (hn : 1 ≤ xs.length) (hn5 : xs.length ≤ 5) :
    match sortExactlyInPlaceX f sw t m it xs.length temp with
    | .returned _ m' => Shuffled it xs.length m m' ∧
        ∀ lt : α → α → Bool, StrictWeak lt → Honest (uncurry2 lt) f → ∃ ys, m'.Seg it ys ∧ IsStableSort lt xs ys
    | .asked m' => m' = m ∧ ∃ t q, f t q = none
    | .swapped m' => Disturbed sw it xs m m'
    | .ub => False := by
  obtain ⟨tree, e, -⟩ := inPlaceTree_some hn hn5
  have hp : Positions it temp xs.length xs.length (inPlaceAt it xs.length temp) := inPlaceAt_positions
  have key := treeX_spec (hp.placed hs ht (xs[0]'(by omega))) f sw t (inPlaceTree_moves e) (inPlaceTree_whole e)
  rw [sortExactlyInPlaceX, e]
  dsimp only
  cases er : treeX f sw (inPlaceAt it xs.length temp) m t tree with
  | ub => rw [er] at key; exact key
  | asked m' => rw [er] at key; exact key
  | swapped m' => rw [er] at key; exact key.disturbed hp hs ht
  | returned r m' =>
    rw [er] at key
    refine ⟨key.2.shuffled hp hs ht, fun lt hlt hf => ?_⟩
    have hx := Ask.exec_honest hf (a := tree.runA (inPlaceAt it xs.length temp) m) (t := t) (r := some m')
      (c := (Ask.exec f t (tree.runA (inPlaceAt it xs.length temp) m)).2) (Prod.ext key.1 rfl)
    have hrun := Tree.runA_run lt (inPlaceAt it xs.length temp) m tree
    obtain ⟨m2, ys, e2, s2, st, -⟩ := C39_in_place hlt hn hn5 hs ht
    rw [sortExactlyInPlace, e] at e2
    have e3 : some m' = some m2 := hx.1.trans (hrun.trans e2)
    cases e3
    exact ⟨ys, s2, st⟩

/-- The comparison of numbers. -/
def lessN (t : Unit) (q : Nat × Nat) : Option (Bool × Unit) := some (decide (q.1 < q.2), t)

/-- Five numbers from the address 0 on. -/
def fiveN : Mem Nat := fun x => [50, 40, 30, 20, 10][x]?

/-- Five elements in the wrong order: there are two swaps, of the first and last and of the second and fourth. -/
example : ∃ m, sortExactlyInPlaceX lessN (fun _ => none) () fiveN 0 5 9 = .returned () m ∧ (List.range 5).map m = [10, 20, 30, 40, 50].map some := ⟨_, rfl, rfl⟩

/-- The second one throws and leaves 7 in both of its objects. -/
example : ∃ m, sortExactlyInPlaceX lessN (fun i => if i = 1 then some (7, 7) else none) () fiveN 0 5 9 = .swapped m ∧
    (List.range 5).map m = [10, 7, 30, 7, 50].map some := ⟨_, rfl, rfl⟩

/-- The hypotheses of the theorem are met. -/
example : fiveN.Seg 0 [50, 40, 30, 20, 10] ∧ fiveN 9 = none ∧ Honest (uncurry2 fun x y : Nat => decide (x < y)) lessN := by
  refine ⟨fun i hi => ?_, rfl, fun t q b t' h => ?_⟩
  · simp only [List.length_cons, List.length_nil] at hi
    interval_cases i <;> rfl
  · cases h
    rfl

end Verif.Algo.Swapping
