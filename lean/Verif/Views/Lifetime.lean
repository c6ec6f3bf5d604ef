import Mathlib.Data.List.Basic
import Mathlib.Tactic.Cases

/-!
# How long iterators of views stay usable (C84)

`adapt.cpp`, `adapt_iterator.cpp`, `reference_or_value.cpp` with `transform` and `filter`, over objects that have lifetimes. A view keeps the range it adapts, either by value (if
it was an rvalue) or as a reference, and a function. An iterator keeps a copy of the function if that is small and trivial, and otherwise a reference to the one in the view. Using a
reference to an object whose lifetime has ended is undefined (`none`).

Functions are pure and total. Elements of containers can be assigned to, but containers do not change their size.
-/

namespace Verif.Views.Lifetime

variable {α : Type}

/-! ## Model -/

/-- The functions of `transform` (`algorithms/transform.cpp` 32-54) and `filter` (`algorithms/filter.cpp` 55-85). -/
inductive Layer (α : Type)
  | map (f : α → α)
  | filter (p : α → Bool)

/-- A function in a view, and whether `can_store_copy` holds for it (`reference_or_value.cpp` 15-18). -/
structure Stored (α : Type) where
  layer : Layer α
  small : Bool

/-- Where the elements are: in a container, or in a container that is in a view. -/
inductive Base
  | container (c : Nat)
  | inside (v : Nat)
  deriving DecidableEq

/-- Where a function is: the view it is in, and its number there. -/
abbrev Loc := Nat × Nat

/-- A view (`adapt.cpp` 52-69): the functions that are in it, because it was made from rvalues, from the innermost on; the places of the functions of the view that it refers
to; the elements that are in it, if any. -/
structure View (α : Type) where
  own : List (Stored α)
  under : List Loc
  base : Base
  xs : List α

/-- All objects that exist. `fresh` is the next identity. -/
structure World (α : Type) where
  fresh : Nat
  containers : Nat → Option (List α)
  views : Nat → Option (View α)

/-- The places of all functions of the view `v`, from the innermost on. -/
def View.chain (v : Nat) (view : View α) : List Loc := view.under ++ (List.range view.own.length).map fun i => (v, i)

/-- The function at a place, if its view still exists. -/
def World.layerAt (w : World α) (l : Loc) : Option (Stored α) := (w.views l.1).bind fun view => view.own[l.2]?

/-- The elements, if they still exist. -/
def World.elems (w : World α) : Base → Option (List α)
  | .container c => w.containers c
  | .inside v => (w.views v).map (·.xs)

/-- What an iterator has of a function (`reference_or_value.cpp` 20-25; `adapt.cpp` 37-44 for `transform`, `filter.cpp` 51-52 for `filter`): a copy or a reference. -/
inductive Traits (α : Type)
  | value (l : Layer α)
  | mapRef (l : Loc)
  | filterRef (l : Loc)

/-- `reference_or_value` (`reference_or_value.cpp` 20-25). -/
def traitsFor (l : Loc) (s : Stored α) : Traits α :=
  if s.small then .value s.layer
  else match s.layer with
    | .map _ => .mapRef l
    | .filter _ => .filterRef l

/-- An iterator (`adapt_iterator.cpp` 107-123) over an iterator over ... over a pointer to an element: the position of that, the end of the elements, and the functions, from the
outermost on. Every `filter` in it also has the end (`filter.cpp` 36). -/
structure Iterator (α : Type) where
  base : Base
  pos : Nat
  stop : Nat
  traits : List (Traits α)

/-- `.get()` for a function that is called with an element (`value_wrapper.cpp` 20-22, `std::reference_wrapper`). -/
def World.getMap (w : World α) (l : Loc) : Option (α → α) :=
  match w.layerAt l with
  | some ⟨.map f, _⟩ => some f
  | _ => none

/-- `.get()` for a predicate. -/
def World.getFilter (w : World α) (l : Loc) : Option (α → Bool) :=
  match w.layerAt l with
  | some ⟨.filter p, _⟩ => some p
  | _ => none

/-- `*it` (`adapt_iterator.cpp` 141-143): `transform` calls its function with the element (`transform.cpp` 43-50), `filter` does not use its predicate (`default_adapt_traits.cpp`
20-24). -/
def derefT (w : World α) (b : Base) : List (Traits α) → Nat → Option α
  | [], pos => (w.elems b).bind fun xs => xs[pos]?
  | .value (.map f) :: ts, pos => (derefT w b ts pos).map f
  | .mapRef l :: ts, pos => (w.getMap l).bind fun f => (derefT w b ts pos).map f
  | .value (.filter _) :: ts, pos => derefT w b ts pos
  | .filterRef _ :: ts, pos => derefT w b ts pos

/-- `find_if` (`algorithms/find.cpp`) as `filter` uses it, with the operations of the underlying iterator; `fuel` is more than the number of elements. -/
def findLoop (deref : Nat → Option α) (next : Nat → Option Nat) (p : α → Bool) (stop : Nat) : Nat → Nat → Option Nat
  | 0, _ => none
  | fuel + 1, pos =>
    if pos = stop then some pos
    else (deref pos).bind fun x => if p x then some pos else (next pos).bind (findLoop deref next p stop fuel)

/-- `++it` (`adapt_iterator.cpp` 146-149): `transform` increments the underlying iterator (`default_adapt_traits.cpp` 30-33); `filter` goes on to the next element that is kept
(`filter.cpp` 41-49). -/
def nextT (w : World α) (b : Base) (stop : Nat) : List (Traits α) → Nat → Option Nat
  | [], pos => (w.elems b).bind fun xs => if pos < xs.length then some (pos + 1) else none
  | .value (.map _) :: ts, pos => nextT w b stop ts pos
  | .mapRef _ :: ts, pos => nextT w b stop ts pos
  | .value (.filter p) :: ts, pos =>
    if pos = stop then none else (nextT w b stop ts pos).bind (findLoop (derefT w b ts) (nextT w b stop ts) p stop (stop + 1))
  | .filterRef l :: ts, pos =>
    if pos = stop then none
    else (w.getFilter l).bind fun p => (nextT w b stop ts pos).bind (findLoop (derefT w b ts) (nextT w b stop ts) p stop (stop + 1))

/-- The position of `begin()` (`adapt.cpp` 71-89): the beginning of the underlying range, or the first element that is kept (`filter.cpp` 63-69). -/
def beginT (w : World α) (b : Base) (stop : Nat) : List (Traits α) → Option Nat
  | [] => some 0
  | .value (.map _) :: ts => beginT w b stop ts
  | .mapRef _ :: ts => beginT w b stop ts
  | .value (.filter p) :: ts => (beginT w b stop ts).bind (findLoop (derefT w b ts) (nextT w b stop ts) p stop (stop + 1))
  | .filterRef l :: ts => (w.getFilter l).bind fun p => (beginT w b stop ts).bind (findLoop (derefT w b ts) (nextT w b stop ts) p stop (stop + 1))

/-- What an iterator has of the functions at some places, from the outermost on. -/
def World.traits (w : World α) (chain : List Loc) : Option (List (Traits α)) := (chain.reverse.mapM fun l => (w.layerAt l).map (traitsFor l))

/-- `begin()` of a view (`adapt.cpp` 71-89, 37-44). -/
def World.begin (w : World α) (v : Nat) : Option (Iterator α) := do
  let view ← w.views v
  let ts ← w.traits (view.chain v)
  let xs ← w.elems view.base
  let pos ← beginT w view.base xs.length ts
  pure ⟨view.base, pos, xs.length, ts⟩

/-- `*it`. -/
def Iterator.deref (it : Iterator α) (w : World α) : Option α := derefT w it.base it.traits it.pos

/-- `++it`. -/
def Iterator.next (it : Iterator α) (w : World α) : Option (Iterator α) :=
  (nextT w it.base it.stop it.traits it.pos).map fun pos => { it with pos }

/-- A loop up to the end, `it == last` (`adapt_iterator.cpp` 175-183) comparing the underlying positions (`default_adapt_traits.cpp` 47-50); at most `fuel` elements. -/
def collect (w : World α) : Nat → Iterator α → Option (List α)
  | 0, it => if it.pos = it.stop then some [] else none
  | fuel + 1, it =>
    if it.pos = it.stop then some []
    else do
      let x ← it.deref w
      let it ← it.next w
      let xs ← collect w fuel it
      pure (x :: xs)

/-- What a program does. Views are made of a container or a view; `transform` and `filter` take lvalues by reference and rvalues by value (`transform.cpp` 118-124, `filter.cpp`
88-93, `adapt.cpp` 65-69, 127-128). -/
inductive Op (α : Type)
  | newContainer (xs : List α)
  | assign (c i : Nat) (x : α)
  | endContainer (c : Nat)
  | viewOf (c : Nat) (s : Stored α)
  | viewOfRvalue (xs : List α) (s : Stored α)
  | viewOfView (v : Nat) (s : Stored α)
  | viewOfRvalueView (v : Nat) (s : Stored α)
  | endView (v : Nat)

/-- A new view. -/
def World.addView (w : World α) (view : View α) : World α := { w with fresh := w.fresh + 1, views := fun v => if v = w.fresh then some view else w.views v }

/-- A view ends. -/
def World.dropView (w : World α) (v : Nat) : World α := { w with views := fun u => if u = v then none else w.views u }

/-- A container gets other contents or ends. -/
def World.setContainer (w : World α) (c : Nat) (xs : Option (List α)) : World α := { w with containers := fun d => if d = c then xs else w.containers d }

/-- One step (`adapt.cpp` 52-69). A view that was moved into another one is not used any more; here it is taken not to exist any more. -/
def step (w : World α) : Op α → Option (World α)
  | .newContainer xs => some { w.setContainer w.fresh (some xs) with fresh := w.fresh + 1 }
  | .assign c i x => (w.containers c).bind fun xs => if i < xs.length then some (w.setContainer c (some (xs.set i x))) else none
  | .endContainer c => some (w.setContainer c none)
  | .viewOf c s => (w.containers c).map fun _ => w.addView ⟨[s], [], .container c, []⟩
  | .viewOfRvalue xs s => some (w.addView ⟨[s], [], .inside w.fresh, xs⟩)
  | .viewOfView v s => (w.views v).map fun view => w.addView ⟨[s], view.chain v, view.base, []⟩
  | .viewOfRvalueView v s => (w.views v).map fun view =>
    (w.dropView v).addView ⟨view.own ++ [s], view.under, if view.base = .inside v then .inside w.fresh else view.base, view.xs⟩
  | .endView v => some (w.dropView v)

/-- A whole program. -/
def run : World α → List (Op α) → Option (World α)
  | w, [] => some w
  | w, op :: ops => (step w op).bind fun w => run w ops

/-! ## Specification -/

/-- The elements of a view with the given functions, from the innermost on. -/
def denote (ls : List (Layer α)) (xs : List α) : List α := ls.foldl (fun xs l => match l with | .map f => xs.map f | .filter p => xs.filter p) xs

/-- Everything that a view refers to exists: the functions at its places are `ls` and its elements are `xs`. -/
def Intact (w : World α) (v : Nat) (ls : List (Layer α)) (xs : List α) : Prop :=
  ∃ view, w.views v = some view ∧ w.elems view.base = some xs ∧ (view.chain v).mapM (fun l => (w.layerAt l).map (·.layer)) = some ls

/-- The functions that an iterator has or refers to, from the outermost on, exist and are `ls`. -/
def Fits (w : World α) : List (Traits α) → List (Layer α) → Prop :=
  List.Forall₂ (fun t l => match t, l with
      | .value l', l => l' = l
      | .mapRef p, .map f => w.getMap p = some f
      | .filterRef p, .filter q => w.getFilter p = some q
      | _, _ => False)

/-- The objects an iterator refers to exist: its functions, from the outermost on, are `ls` and the elements are `xs`. -/
def Usable (w : World α) (it : Iterator α) (ls : List (Layer α)) (xs : List α) : Prop :=
  w.elems it.base = some xs ∧ it.stop = xs.length ∧ Fits w it.traits ls

/-- The lifetimes that matter to an iterator. -/
def Needs (it : Iterator α) : Op α → Prop
  | .endContainer c => it.base = .container c
  | .endView v => it.base = .inside v ∨ ∃ t ∈ it.traits, ∃ i, t = .mapRef (v, i) ∨ t = .filterRef (v, i)
  | .viewOfRvalueView v _ => it.base = .inside v ∨ ∃ t ∈ it.traits, ∃ i, t = .mapRef (v, i) ∨ t = .filterRef (v, i)
  | _ => False

/-- What becomes of an element in a view with the given functions, from the outermost on; `none` if it is not kept. -/
def through : List (Layer α) → α → Option α
  | [], x => some x
  | .map f :: ls, x => (through ls x).map f
  | .filter p :: ls, x => (through ls x).filter p

/-- What the functions of `transform` make of an element. -/
def changed : List (Layer α) → α → α
  | [], x => x
  | .map f :: ls, x => f (changed ls x)
  | .filter _ :: ls, x => changed ls x

/-- `q` is the position of the first element from `s` on that is kept, or the end. -/
def First (ls : List (Layer α)) (xs : List α) (s q : Nat) : Prop :=
  s ≤ q ∧ q ≤ xs.length ∧ (∀ i x, s ≤ i → i < q → xs[i]? = some x → through ls x = none) ∧ (∀ x, xs[q]? = some x → through ls x ≠ none)

/-! ## Theorems -/

theorem through_eq_changed (ls : List (Layer α)) (x : α) : ∀ y, through ls x = some y → y = changed ls x := by
  induction ls with
  | nil => intro y h; simpa [through, changed] using h.symm
  | cons l ls ih =>
    intro y h
    cases l with
    | map f =>
      simp only [through, Option.map_eq_some_iff] at h
      obtain ⟨z, hz, rfl⟩ := h
      rw [ih z hz, changed]
    | filter p =>
      simp only [through, Option.filter_eq_some_iff] at h
      rw [changed]
      exact ih y h.1

theorem through_of_ne {ls : List (Layer α)} {x : α} (h : through ls x ≠ none) : through ls x = some (changed ls x) := by
  obtain ⟨y, hy⟩ := Option.ne_none_iff_exists'.mp h
  rw [hy, ← through_eq_changed ls x y hy]

theorem denote_reverse (ls : List (Layer α)) (xs : List α) : denote ls.reverse xs = xs.filterMap (through ls) := by
  induction ls with
  | nil => simp [denote, through]
  | cons l ls ih =>
    rw [List.reverse_cons, denote, List.foldl_append]
    change List.foldl _ (denote ls.reverse xs) [l] = _
    rw [ih]
    cases l with
    | map f => simp only [List.foldl_cons, List.foldl_nil, List.map_filterMap, through]
    | filter p =>
      simp only [List.foldl_cons, List.foldl_nil, List.filter_filterMap, through]

theorem derefT_eq {w : World α} {b : Base} {xs : List α} (hb : w.elems b = some xs) {ts : List (Traits α)} {ls : List (Layer α)} (h : Fits w ts ls) (pos : Nat) :
    derefT w b ts pos = xs[pos]?.map (changed ls) := by
  induction h with
  | nil => simp [derefT, hb, changed]
  | @cons t l ts ls h _ ih =>
    match t, l, h with
    | .value (.map f), _, h => subst h; simp [derefT, ih, changed, Function.comp_def]
    | .value (.filter p), _, h => subst h; simp only [derefT, ih, changed]
    | .mapRef p, .map f, h => simp [derefT, h, ih, changed, Function.comp_def]
    | .filterRef p, .filter q, h => simp only [derefT, ih, changed]

theorem first_self {ls : List (Layer α)} {xs : List α} {s q : Nat} (h : First ls xs s q) (p : α → Bool) {x : α} (hx : xs[q]? = some x) (hp : p (changed ls x) = true) :
    First (.filter p :: ls) xs s q := by
  refine ⟨h.1, h.2.1, fun i y h1 h2 hy => ?_, fun y hy => ?_⟩
  · rw [through, h.2.2.1 i y h1 h2 hy]; rfl
  · obtain rfl : x = y := by simpa [hx] using hy
    rw [through, through_of_ne (h.2.2.2 x hx)]
    simp [hp]

theorem first_map {ls : List (Layer α)} {xs : List α} {s q : Nat} (h : First ls xs s q) (f : α → α) : First (.map f :: ls) xs s q :=
  ⟨h.1, h.2.1, fun i y h1 h2 hy => by rw [through, h.2.2.1 i y h1 h2 hy]; rfl, fun y hy => by
    rw [through, through_of_ne (h.2.2.2 y hy)]; simp⟩

theorem first_skip {ls : List (Layer α)} {xs : List α} {s q r : Nat} (h : First ls xs s q) (p : α → Bool) {x : α} (hx : xs[q]? = some x) (hp : p (changed ls x) = false)
    (hr : First (.filter p :: ls) xs (q + 1) r) : First (.filter p :: ls) xs s r := by
  refine ⟨by have := h.1; have := hr.1; omega, hr.2.1, fun i y h1 h2 hy => ?_, hr.2.2.2⟩
  rcases Nat.lt_trichotomy i q with hi | rfl | hi
  · rw [through, h.2.2.1 i y h1 hi hy]; rfl
  · obtain rfl : x = y := by simpa [hx] using hy
    rw [through, through_of_ne (h.2.2.2 x hx)]
    simp [hp]
  · exact hr.2.2.1 i y hi h2 hy

theorem findLoop_first {ls : List (Layer α)} {xs : List α} {deref : Nat → Option α} {next : Nat → Option Nat} (p : α → Bool)
    (hd : ∀ pos, deref pos = xs[pos]?.map (changed ls)) (hn : ∀ pos, pos < xs.length → ∃ q, next pos = some q ∧ First ls xs (pos + 1) q) :
    ∀ (fuel s q : Nat), xs.length < fuel + q → First ls xs s q →
      ∃ r, findLoop deref next p xs.length fuel q = some r ∧ First (.filter p :: ls) xs s r := by
  intro fuel
  induction fuel with
  | zero => intro s q h f; exact absurd f.2.1 (by omega)
  | succ fuel ih =>
    intro s q h f
    rw [findLoop]
    by_cases hq : q = xs.length
    · rw [if_pos hq]
      refine ⟨q, rfl, f.1, f.2.1, fun i y h1 h2 hy => ?_, fun y hy => ?_⟩
      · rw [through, f.2.2.1 i y h1 h2 hy]; rfl
      · rw [hq] at hy; simp at hy
    · have hlt : q < xs.length := by have := f.2.1; omega
      have hx : xs[q]? = some xs[q] := List.getElem?_eq_getElem hlt
      rw [if_neg hq, hd, hx]
      simp only [Option.map_some, Option.bind_some]
      cases hp : p (changed ls xs[q]) with
      | true => exact ⟨q, by simp, first_self f p hx hp⟩
      | false =>
        obtain ⟨q', e, f'⟩ := hn q hlt
        obtain ⟨r, hr, fr⟩ := ih (q + 1) q' (by have := f'.1; omega) f'
        exact ⟨r, by simp [e, hr], first_skip f p hx hp fr⟩

theorem nextT_first {w : World α} {b : Base} {xs : List α} (hb : w.elems b = some xs) {ts : List (Traits α)} {ls : List (Layer α)} (h : Fits w ts ls) :
    ∀ pos, pos < xs.length → ∃ q, nextT w b xs.length ts pos = some q ∧ First ls xs (pos + 1) q := by
  induction h with
  | nil =>
    intro pos hp
    exact ⟨pos + 1, by simp [nextT, hb, hp], Nat.le_refl _, hp, fun i x h1 h2 => by omega, fun x _ => by simp [through]⟩
  | @cons t l ts ls h hs ih =>
    intro pos hp
    obtain ⟨q, e, f⟩ := ih pos hp
    have hne : pos ≠ xs.length := by omega
    match t, l, h with
    | .value (.map g), _, h => subst h; exact ⟨q, by rw [nextT, e], first_map f g⟩
    | .mapRef p, .map g, h => exact ⟨q, by rw [nextT, e], first_map f g⟩
    | .value (.filter p), _, h =>
      subst h
      obtain ⟨r, hr, fr⟩ := findLoop_first p (derefT_eq hb hs) ih (xs.length + 1) (pos + 1) q (by omega) f
      exact ⟨r, by simp [nextT, hne, e, hr], fr⟩
    | .filterRef l, .filter p, h =>
      obtain ⟨r, hr, fr⟩ := findLoop_first p (derefT_eq hb hs) ih (xs.length + 1) (pos + 1) q (by omega) f
      exact ⟨r, by simp [nextT, hne, h, e, hr], fr⟩

theorem beginT_first {w : World α} {b : Base} {xs : List α} (hb : w.elems b = some xs) {ts : List (Traits α)} {ls : List (Layer α)} (h : Fits w ts ls) :
    ∃ q, beginT w b xs.length ts = some q ∧ First ls xs 0 q := by
  induction h with
  | nil => exact ⟨0, rfl, Nat.le_refl _, Nat.zero_le _, fun i x h1 h2 => by omega, fun x _ => by simp [through]⟩
  | @cons t l ts ls h hs ih =>
    obtain ⟨q, e, f⟩ := ih
    match t, l, h with
    | .value (.map g), _, h => subst h; exact ⟨q, by rw [beginT, e], first_map f g⟩
    | .mapRef p, .map g, h => exact ⟨q, by rw [beginT, e], first_map f g⟩
    | .value (.filter p), _, h =>
      subst h
      obtain ⟨r, hr, fr⟩ := findLoop_first p (derefT_eq hb hs) (nextT_first hb hs) (xs.length + 1) 0 q (by omega) f
      exact ⟨r, by simp [beginT, e, hr], fr⟩
    | .filterRef l, .filter p, h =>
      obtain ⟨r, hr, fr⟩ := findLoop_first p (derefT_eq hb hs) (nextT_first hb hs) (xs.length + 1) 0 q (by omega) f
      exact ⟨r, by simp [beginT, h, e, hr], fr⟩

/-- An iterator whose objects exist can be dereferenced unless it is at the end, and gives the current element as the functions change it; `++` goes to the next element that is
kept. -/
theorem C84_usable {w : World α} {it : Iterator α} {ls : List (Layer α)} {xs : List α} (h : Usable w it ls xs) :
    it.deref w = xs[it.pos]?.map (changed ls) ∧
      (it.pos < xs.length → ∃ q, it.next w = some { it with pos := q } ∧ First ls xs (it.pos + 1) q) := by
  obtain ⟨hb, hs, hf⟩ := h
  refine ⟨derefT_eq hb hf it.pos, fun hp => ?_⟩
  obtain ⟨q, e, f⟩ := nextT_first hb hf it.pos hp
  exact ⟨q, by rw [Iterator.next, hs, e]; rfl, f⟩

theorem filterMap_none {ls : List (Layer α)} {xs : List α} : ∀ (n s : Nat), (∀ i x, s ≤ i → i < s + n → xs[i]? = some x → through ls x = none) →
    (xs.drop s).filterMap (through ls) = (xs.drop (s + n)).filterMap (through ls) := by
  intro n
  induction n with
  | zero => intro s _; rfl
  | succ n ih =>
    intro s h
    rw [show s + (n + 1) = s + 1 + n by omega, ← ih (s + 1) fun i x h1 h2 => h i x (by omega) (by omega)]
    by_cases hs : s < xs.length
    · rw [List.drop_eq_getElem_cons hs, List.filterMap_cons, h s xs[s] (Nat.le_refl _) (by omega) (List.getElem?_eq_getElem hs)]
    · rw [List.drop_eq_nil_of_le (by omega), List.drop_eq_nil_of_le (by omega)]

theorem first_filterMap {ls : List (Layer α)} {xs : List α} {s q : Nat} (f : First ls xs s q) : (xs.drop s).filterMap (through ls) = (xs.drop q).filterMap (through ls) := by
  have h := filterMap_none (ls := ls) (xs := xs) (q - s) s fun i x h1 h2 => f.2.2.1 i x h1 (by have := f.1; omega)
  rwa [show s + (q - s) = q by have := f.1; omega] at h

theorem collect_eq {w : World α} {ls : List (Layer α)} {xs : List α} : ∀ (fuel : Nat) (it : Iterator α) (s : Nat), Usable w it ls xs → First ls xs s it.pos → xs.length ≤ fuel + it.pos →
    collect w fuel it = some ((xs.drop s).filterMap (through ls)) := by
  intro fuel
  induction fuel with
  | zero =>
    intro it s h f hf
    have : it.pos = xs.length := by have := f.2.1; omega
    rw [collect, if_pos (by rw [h.2.1, this]), first_filterMap f, this]
    simp
  | succ fuel ih =>
    intro it s h f hf
    rw [collect, first_filterMap f]
    by_cases hq : it.pos = xs.length
    · rw [if_pos (by rw [h.2.1, hq]), hq]; simp
    · have hlt : it.pos < xs.length := by have := f.2.1; omega
      rw [if_neg (by rw [h.2.1]; exact hq)]
      obtain ⟨hd, hn⟩ := C84_usable h
      obtain ⟨q, e, f'⟩ := hn hlt
      have := ih { it with pos := q } (it.pos + 1) h f' (by have := f'.1; simp; omega)
      rw [hd, List.getElem?_eq_getElem hlt, e, List.drop_eq_getElem_cons hlt, List.filterMap_cons, through_of_ne (f.2.2.2 _ (List.getElem?_eq_getElem hlt))]
      simp [this]

theorem fits_of_layers {w : World α} : ∀ {chain : List Loc} {ls : List (Layer α)}, chain.mapM (fun l => (w.layerAt l).map (·.layer)) = some ls →
    ∃ ts, (chain.mapM fun l => (w.layerAt l).map (traitsFor l)) = some ts ∧ Fits w ts ls := by
  intro chain
  induction chain with
  | nil => intro ls h; simp at h; subst h; exact ⟨[], by simp, .nil⟩
  | cons l chain ih =>
    intro ls h
    rw [List.mapM_cons] at h
    cases hl : w.layerAt l with
    | none => simp [hl] at h
    | some st =>
      cases hc : chain.mapM (fun l => (w.layerAt l).map (·.layer)) with
      | none => simp [hl, hc] at h
      | some ls' =>
        simp [hl, hc] at h
        subst h
        obtain ⟨ts, ht, hf⟩ := ih hc
        refine ⟨traitsFor l st :: ts, by rw [List.mapM_cons]; simp [hl, ht], .cons ?_ hf⟩
        obtain ⟨la, sm⟩ := st
        cases sm with
        | true => simp [traitsFor]
        | false => cases la <;> simp [traitsFor, World.getMap, World.getFilter, hl]

theorem mapM_reverse {β γ : Type} (g : β → Option γ) : ∀ (l : List β) (r : List γ), l.mapM g = some r → l.reverse.mapM g = some r.reverse := by
  intro l
  induction l with
  | nil => intro r h; simp at h; subst h; simp
  | cons a l ih =>
    intro r h
    rw [List.mapM_cons] at h
    cases ha : g a with
    | none => simp [ha] at h
    | some b =>
      cases hl : l.mapM g with
      | none => simp [ha, hl] at h
      | some r' =>
        simp [ha, hl] at h
        subst h
        rw [List.reverse_cons, List.mapM_append, ih r' hl]
        simp [ha]

/-- `begin` of a view all of whose parts exist works, and a loop from there up to the end gives the elements of the view. -/
theorem C84_elements {w : World α} {v : Nat} {ls : List (Layer α)} {xs : List α} (h : Intact w v ls xs) :
    ∃ it, w.begin v = some it ∧ Usable w it ls.reverse xs ∧ ∀ fuel, xs.length ≤ fuel → collect w fuel it = some (denote ls xs) := by
  obtain ⟨view, hv, hb, hc⟩ := h
  obtain ⟨ts, ht, hf⟩ := fits_of_layers (mapM_reverse _ _ _ hc)
  obtain ⟨q, e, f⟩ := beginT_first hb hf
  refine ⟨⟨view.base, q, xs.length, ts⟩, ?_, ⟨hb, rfl, hf⟩, fun fuel hn => ?_⟩
  · simp [World.begin, hv, World.traits, ht, hb, e]
  · rw [collect_eq fuel _ 0 ⟨hb, rfl, hf⟩ f (by omega), List.drop_zero, ← denote_reverse, List.reverse_reverse]

/-! ### Histories -/

/-- Before anything happens. -/
def World.empty : World α := ⟨0, fun _ => none, fun _ => none⟩

/-- Identities are not used again, and views refer to older views. -/
structure WF (w : World α) : Prop where
  fresh : ∀ n, w.fresh ≤ n → w.containers n = none ∧ w.views n = none
  older : ∀ v view, w.views v = some view → ∀ l ∈ view.under, l.1 < v

theorem WF.lt_view {w : World α} (h : WF w) {v : Nat} {view : View α} (hv : w.views v = some view) : v < w.fresh := by
  rcases Nat.lt_or_ge v w.fresh with h' | h'
  · exact h'
  · rw [(h.fresh v h').2] at hv; cases hv

theorem WF.lt_container {w : World α} (h : WF w) {c : Nat} {xs : List α} (hv : w.containers c = some xs) : c < w.fresh := by
  rcases Nat.lt_or_ge c w.fresh with h' | h'
  · exact h'
  · rw [(h.fresh c h').1] at hv; cases hv

theorem wf_empty : WF (World.empty : World α) := ⟨fun _ _ => ⟨rfl, rfl⟩, fun _ _ h => by cases h⟩

theorem wf_addView {w : World α} (h : WF w) {view : View α} (hu : ∀ l ∈ view.under, l.1 < w.fresh) : WF (w.addView view) := by
  refine ⟨fun n hn => ?_, fun v view' hv => ?_⟩
  · have hn : w.fresh + 1 ≤ n := hn
    exact ⟨(h.fresh n (by omega)).1, by simp only [World.addView]; rw [if_neg (by omega)]; exact (h.fresh n (by omega)).2⟩
  · simp only [World.addView] at hv
    split at hv
    · next e => cases hv; subst e; exact hu
    · exact h.older v view' hv

theorem wf_dropView {w : World α} (h : WF w) (v : Nat) : WF (w.dropView v) := by
  refine ⟨fun n hn => ⟨(h.fresh n hn).1, ?_⟩, fun u view' hv => ?_⟩
  · simp only [World.dropView]; split
    · rfl
    · exact (h.fresh n hn).2
  · simp only [World.dropView] at hv
    split at hv
    · cases hv
    · exact h.older u view' hv

theorem wf_step {w w' : World α} {op : Op α} (h : WF w) (hs : step w op = some w') : WF w' := by
  cases op with
  | newContainer xs =>
    cases hs
    refine ⟨fun n hn => ?_, h.older⟩
    have hn : w.fresh + 1 ≤ n := hn
    exact ⟨by simp only [World.setContainer]; rw [if_neg (by omega)]; exact (h.fresh n (by omega)).1, (h.fresh n (by omega)).2⟩
  | assign c i x =>
    simp only [step, Option.bind_eq_some_iff] at hs
    obtain ⟨xs, hc, hs⟩ := hs
    split at hs
    · cases hs
      have := h.lt_container hc
      refine ⟨fun n hn => ?_, h.older⟩
      have hn : w.fresh ≤ n := hn
      exact ⟨by simp only [World.setContainer]; rw [if_neg (by omega)]; exact (h.fresh n (by omega)).1, (h.fresh n (by omega)).2⟩
    · cases hs
  | endContainer c =>
    cases hs
    refine ⟨fun n hn => ⟨?_, (h.fresh n hn).2⟩, h.older⟩
    simp only [World.setContainer]
    split
    · rfl
    · exact (h.fresh n hn).1
  | viewOf c s =>
    simp only [step, Option.map_eq_some_iff] at hs
    obtain ⟨xs, hc, rfl⟩ := hs
    exact wf_addView h fun l hl => by simp at hl
  | viewOfRvalue xs s => cases hs; exact wf_addView h fun l hl => by simp at hl
  | viewOfView v s =>
    simp only [step, Option.map_eq_some_iff] at hs
    obtain ⟨view, hv, rfl⟩ := hs
    refine wf_addView h fun l hl => ?_
    simp only [View.chain, List.mem_append, List.mem_map, List.mem_range] at hl
    have := h.lt_view hv
    rcases hl with hl | ⟨i, _, rfl⟩
    · exact Nat.lt_trans (h.older v view hv l hl) this
    · exact this
  | viewOfRvalueView v s =>
    simp only [step, Option.map_eq_some_iff] at hs
    obtain ⟨view, hv, rfl⟩ := hs
    exact wf_addView (wf_dropView h v) fun l hl => Nat.lt_trans (h.older v view hv l hl) (h.lt_view hv)
  | endView v => cases hs; exact wf_dropView h v

theorem wf_run {ops : List (Op α)} : ∀ {w w' : World α}, WF w → run w ops = some w' → WF w' := by
  induction ops with
  | nil => intro w w' h hr; cases hr; exact h
  | cons op ops ih =>
    intro w w' h hr
    simp only [run, Option.bind_eq_some_iff] at hr
    obtain ⟨w1, h1, h2⟩ := hr
    exact ih (wf_step h h1) h2

/-- The elements after what a program assigned to them. -/
def after (b : Base) : List (Op α) → List α → List α
  | [], xs => xs
  | .assign c i x :: ops, xs => after b ops (if b = .container c then xs.set i x else xs)
  | _ :: ops, xs => after b ops xs

/-- Everything about the objects an iterator refers to stays, except for assignments. -/
theorem usable_of_same {w w' : World α} {it : Iterator α} {ls : List (Layer α)} {xs xs' : List α} (h : Usable w it ls xs) (he : w'.elems it.base = some xs')
    (hl : xs'.length = xs.length) (hv : ∀ v view, w.views v = some view → (∃ t ∈ it.traits, ∃ i, t = .mapRef (v, i) ∨ t = .filterRef (v, i)) → w'.views v = some view) :
    Usable w' it ls xs' := by
  refine ⟨he, h.2.1.trans hl.symm, ?_⟩
  have key : ∀ l : Loc, (∃ t ∈ it.traits, t = .mapRef l ∨ t = .filterRef l) → ∀ s, w.layerAt l = some s → w'.layerAt l = some s := by
    rintro ⟨v, i⟩ ⟨t, ht, hti⟩ s hs
    simp only [World.layerAt, Option.bind_eq_some_iff] at hs ⊢
    obtain ⟨view, hview, hi⟩ := hs
    exact ⟨view, hv v view hview ⟨t, ht, i, hti⟩, hi⟩
  have getMap : ∀ l f, (∃ t ∈ it.traits, t = .mapRef l ∨ t = .filterRef l) → w.getMap l = some f → w'.getMap l = some f := by
    intro l f hl hf
    cases hw : w.layerAt l with
    | none => simp [World.getMap, hw] at hf
    | some s => simp only [World.getMap, hw] at hf; simp only [World.getMap, key l hl s hw, hf]
  have getFilter : ∀ l f, (∃ t ∈ it.traits, t = .mapRef l ∨ t = .filterRef l) → w.getFilter l = some f → w'.getFilter l = some f := by
    intro l f hl hf
    cases hw : w.layerAt l with
    | none => simp [World.getFilter, hw] at hf
    | some s => simp only [World.getFilter, hw] at hf; simp only [World.getFilter, key l hl s hw, hf]
  have hf := h.2.2
  have : ∀ ts : List (Traits α), (∀ t ∈ ts, t ∈ it.traits) → ∀ ls, Fits w ts ls → Fits w' ts ls := by
    intro ts hts ls hf
    induction hf with
    | nil => exact .nil
    | @cons t l ts ls h _ ih =>
      refine .cons ?_ (ih fun t ht => hts t (List.mem_cons_of_mem _ ht))
      have ht := hts t List.mem_cons_self
      match t, l, h with
      | .value l', l, h => exact h
      | .mapRef p, .map f, h => exact getMap p f ⟨_, ht, Or.inl rfl⟩ h
      | .filterRef p, .filter q, h => exact getFilter p q ⟨_, ht, Or.inr rfl⟩ h
  exact this it.traits (fun _ h => h) ls hf

theorem usable_step {w w' : World α} {op : Op α} {it : Iterator α} {ls : List (Layer α)} {xs : List α} (hw : WF w) (h : Usable w it ls xs) (hn : ¬ Needs it op)
    (hs : step w op = some w') : Usable w' it ls (after it.base [op] xs) := by
  have addView : ∀ (w : World α) (view : View α), WF w → Usable w it ls xs → Usable (w.addView view) it ls xs := by
    intro w view hw h
    refine usable_of_same h ?_ rfl fun v view' hv _ => ?_
    · have he := h.1
      revert he
      cases it.base with
      | container c => exact id
      | inside v =>
        intro he
        simp only [World.elems, Option.map_eq_some_iff] at he ⊢
        obtain ⟨view', hv, rfl⟩ := he
        exact ⟨view', by simp only [World.addView]; rw [if_neg (by have := hw.lt_view hv; omega)]; exact hv, rfl⟩
    · simp only [World.addView]; rw [if_neg (by have := hw.lt_view hv; omega)]; exact hv
  have dropView : ∀ v, ¬ (it.base = .inside v ∨ ∃ t ∈ it.traits, ∃ i, t = .mapRef (v, i) ∨ t = .filterRef (v, i)) → Usable (w.dropView v) it ls xs := by
    intro v hn
    simp only [not_or] at hn
    refine usable_of_same h ?_ rfl fun u view' hv hu => ?_
    · have he := h.1
      have hb := hn.1
      revert he hb
      cases it.base with
      | container c => exact fun he _ => he
      | inside u =>
        intro he hb
        simp only [World.elems, World.dropView]
        rw [if_neg fun e => hb (by rw [e])]
        exact he
    · simp only [World.dropView]
      rw [if_neg]
      · exact hv
      · rintro rfl; exact hn.2 hu
  cases op with
  | newContainer ys =>
    cases hs
    refine usable_of_same h ?_ rfl fun v view' hv _ => hv
    have he := h.1
    revert he
    cases it.base with
    | container c =>
      intro he
      simp only [World.elems, World.setContainer, after]
      rw [if_neg (by have := hw.lt_container he; omega)]
      exact he
    | inside v => exact id
  | assign c i x =>
    simp only [step, Option.bind_eq_some_iff] at hs
    obtain ⟨ys, hc, hs⟩ := hs
    split at hs
    · cases hs
      refine usable_of_same h ?_ (by simp only [after]; split <;> simp) fun v view' hv _ => hv
      have he := h.1
      simp only [after]
      revert he
      cases it.base with
      | container d =>
        intro he
        simp only [World.elems, World.setContainer, Base.container.injEq]
        by_cases hd : d = c
        · subst hd
          simp only [World.elems] at he
          rw [hc] at he; cases he
          simp
        · rw [if_neg hd, if_neg hd]; exact he
      | inside v => intro he; simpa [World.elems, World.setContainer] using he
    · cases hs
  | endContainer c =>
    cases hs
    refine usable_of_same h ?_ rfl fun v view' hv _ => hv
    have he := h.1
    simp only [Needs] at hn
    revert he hn
    cases it.base with
    | container d =>
      intro hn he
      simp only [World.elems, World.setContainer, after]
      rw [if_neg fun e => hn (by rw [e])]
      exact he
    | inside v => exact fun _ he => he
  | viewOf c s =>
    simp only [step, Option.map_eq_some_iff] at hs
    obtain ⟨xs, hc, rfl⟩ := hs
    exact addView w _ hw h
  | viewOfRvalue xs s => cases hs; exact addView w _ hw h
  | viewOfView v s =>
    simp only [step, Option.map_eq_some_iff] at hs
    obtain ⟨view, hv, rfl⟩ := hs
    exact addView w _ hw h
  | viewOfRvalueView v s =>
    simp only [step, Option.map_eq_some_iff] at hs
    obtain ⟨view, hv, rfl⟩ := hs
    exact addView _ _ (wf_dropView hw v) (dropView v hn)
  | endView v => cases hs; exact dropView v hn

theorem usable_run {ops : List (Op α)} : ∀ {w w' : World α} {it : Iterator α} {ls : List (Layer α)} {xs : List α}, WF w → Usable w it ls xs →
    (∀ op ∈ ops, ¬ Needs it op) → run w ops = some w' → Usable w' it ls (after it.base ops xs) := by
  induction ops with
  | nil => intro w w' it ls xs _ h _ hr; cases hr; exact h
  | cons op ops ih =>
    intro w w' it ls xs hw h hn hr
    simp only [run, Option.bind_eq_some_iff] at hr
    obtain ⟨w1, h1, h2⟩ := hr
    have := ih (wf_step hw h1) (usable_step hw h (hn op List.mem_cons_self) h1) (fun op ho => hn op (List.mem_cons_of_mem _ ho)) h2
    cases op <;> exact this

/-- Whatever a program does, as long as it does not end the lifetime of something that the iterator refers to, the iterator can be used, and gives the elements as they are
then: `*it` is what the functions of the view make of the current element, and `++it` goes to the next element that is kept now. -/
theorem C84_stable {before later : List (Op α)} {w w' : World α} {v : Nat} {ls : List (Layer α)} {xs : List α} {it : Iterator α} (hw : run World.empty before = some w)
    (hv : Intact w v ls xs) (hi : w.begin v = some it) (hn : ∀ op ∈ later, ¬ Needs it op) (hr : run w later = some w') :
    it.deref w' = (after it.base later xs)[it.pos]?.map (changed ls.reverse) ∧
      (it.pos < xs.length → ∃ q, it.next w' = some { it with pos := q } ∧ First ls.reverse (after it.base later xs) (it.pos + 1) q) ∧
      Usable w' it ls.reverse (after it.base later xs) := by
  obtain ⟨it', e, hu, -⟩ := C84_elements hv
  obtain rfl : it' = it := by simpa [hi] using e.symm
  have h := usable_run (wf_run wf_empty hw) hu hn hr
  have hl : (after it'.base later xs).length = xs.length := h.2.1.symm.trans hu.2.1
  exact ⟨(C84_usable h).1, fun hp => (C84_usable h).2 (hl ▸ hp), h⟩

theorem after_same {b : Base} {ops : List (Op α)} (h : ∀ op ∈ ops, ∀ c i x, op = .assign c i x → b ≠ .container c) (xs : List α) : after b ops xs = xs := by
  induction ops with
  | nil => rfl
  | cons op ops ih =>
    have ih := ih fun op ho => h op (List.mem_cons_of_mem _ ho)
    cases op with
    | assign c i x => rw [after, if_neg (h _ List.mem_cons_self c i x rfl), ih]
    | _ => exact ih

/-- If none of the elements is assigned to, a loop gives all elements of the view that there were when the iterator was made. -/
theorem C84_stable_elements {before later : List (Op α)} {w w' : World α} {v : Nat} {ls : List (Layer α)} {xs : List α} {it : Iterator α} (hw : run World.empty before = some w)
    (hv : Intact w v ls xs) (hi : w.begin v = some it) (hn : ∀ op ∈ later, ¬ Needs it op) (ha : ∀ op ∈ later, ∀ c i x, op = .assign c i x → it.base ≠ .container c)
    (hr : run w later = some w') {fuel : Nat} (hf : xs.length ≤ fuel) : collect w' fuel it = some (denote ls xs) := by
  have hu := (C84_stable hw hv hi hn hr).2.2
  rw [after_same ha] at hu
  obtain ⟨view, hv, hb, hc⟩ := hv
  obtain ⟨ts, ht, hfi⟩ := fits_of_layers (mapM_reverse _ _ _ hc)
  obtain ⟨q, e, f⟩ := beginT_first hb hfi
  obtain rfl : (⟨view.base, q, xs.length, ts⟩ : Iterator α) = it := by simpa [World.begin, hv, World.traits, ht, hb, e] using hi
  rw [collect_eq fuel _ 0 hu f (by omega), List.drop_zero, ← denote_reverse, List.reverse_reverse]

theorem traits_mem {w : World α} : ∀ {chain : List Loc} {ts : List (Traits α)}, (chain.mapM fun l => (w.layerAt l).map (traitsFor l)) = some ts →
    (∀ t ∈ ts, ∃ l ∈ chain, ∃ s, w.layerAt l = some s ∧ t = traitsFor l s) ∧ (∀ l ∈ chain, ∃ s, w.layerAt l = some s ∧ traitsFor l s ∈ ts) := by
  intro chain
  induction chain with
  | nil => intro ts h; simp at h; subst h; simp
  | cons l chain ih =>
    intro ts h
    rw [List.mapM_cons] at h
    cases hl : w.layerAt l with
    | none => simp [hl] at h
    | some st =>
      cases hc : (chain.mapM fun l => (w.layerAt l).map (traitsFor l)) with
      | none => simp [hl, hc] at h
      | some ts' =>
        simp [hl, hc] at h
        subst h
        refine ⟨fun t ht => ?_, fun l' hl' => ?_⟩
        · rcases List.mem_cons.mp ht with rfl | ht
          · exact ⟨l, List.mem_cons_self, st, hl, rfl⟩
          · obtain ⟨l', h1, h2⟩ := (ih hc).1 t ht
            exact ⟨l', List.mem_cons_of_mem _ h1, h2⟩
        · rcases List.mem_cons.mp hl' with rfl | hl'
          · exact ⟨st, hl, List.mem_cons_self⟩
          · obtain ⟨s, h1, h2⟩ := (ih hc).2 l' hl'
            exact ⟨s, h1, List.mem_cons_of_mem _ h2⟩

theorem begin_traits {w : World α} {v : Nat} {it : Iterator α} (h : w.begin v = some it) :
    ∃ view, w.views v = some view ∧ it.base = view.base ∧ (∀ t ∈ it.traits, ∃ l ∈ view.chain v, ∃ s, w.layerAt l = some s ∧ t = traitsFor l s) ∧
      (∀ l ∈ view.chain v, ∃ s, w.layerAt l = some s ∧ traitsFor l s ∈ it.traits) := by
  cases hv : w.views v with
  | none => simp [World.begin, hv] at h
  | some view =>
    cases ht : w.traits (view.chain v) with
    | none => simp [World.begin, hv, ht] at h
    | some ts =>
      cases he : w.elems view.base with
      | none => simp [World.begin, hv, ht, he] at h
      | some xs =>
        cases hb : beginT w view.base xs.length ts with
        | none => simp [World.begin, hv, ht, he, hb] at h
        | some pos =>
          simp [World.begin, hv, ht, he, hb] at h
          subst h
          have := traits_mem ht
          simp only [List.mem_reverse] at this
          exact ⟨view, rfl, rfl, this.1, this.2⟩

/-- If all functions of a view of a container are small, its iterators can be used as long as the container exists, whatever happens to the views. -/
theorem C84_small {before later : List (Op α)} {w w' : World α} {v c : Nat} {ls : List (Layer α)} {xs : List α} {it : Iterator α} (hw : run World.empty before = some w)
    (hv : Intact w v ls xs) (hi : w.begin v = some it) (hc : ∀ view, w.views v = some view → view.base = .container c ∧ ∀ l ∈ view.chain v, ∀ s, w.layerAt l = some s → s.small = true)
    (hn : ∀ op ∈ later, ∀ d, op = .endContainer d → d ≠ c) (hr : run w later = some w') : Usable w' it ls.reverse (after (.container c) later xs) := by
  obtain ⟨view, hview, hb, ht, -⟩ := begin_traits hi
  obtain ⟨hbase, hsmall⟩ := hc view hview
  have hvals : ∀ t ∈ it.traits, ∃ l, t = .value l := by
    intro t h
    obtain ⟨l, hl, s, hs, rfl⟩ := ht t h
    exact ⟨s.layer, by simp [traitsFor, hsmall l hl s hs]⟩
  have hno : ∀ u, ¬ (it.base = .inside u ∨ ∃ t ∈ it.traits, ∃ i, t = .mapRef (u, i) ∨ t = .filterRef (u, i)) := by
    rintro u (h | ⟨t, h, i, h'⟩)
    · rw [hb, hbase] at h; cases h
    · obtain ⟨l, rfl⟩ := hvals t h
      rcases h' with h' | h' <;> cases h'
  have hb' : it.base = .container c := hb.trans hbase
  have := (C84_stable hw hv hi (fun op ho h => ?_) hr).2.2
  · rwa [hb'] at this
  · cases op with
    | endContainer d => exact hn _ ho d rfl (by have h : it.base = .container d := h; rw [hb'] at h; cases h; rfl)
    | endView u => exact hno u h
    | viewOfRvalueView u s => exact hno u h
    | _ => exact h

theorem derefT_dead {w : World α} {b : Base} {ts : List (Traits α)} {l : Loc} (h : .mapRef l ∈ ts) (hd : w.views l.1 = none) (pos : Nat) : derefT w b ts pos = none := by
  induction ts with
  | nil => simp at h
  | cons t ts ih =>
    rcases List.mem_cons.mp h with rfl | h
    · simp [derefT, World.getMap, World.layerAt, hd]
    · have ih := ih h
      match t with
      | .value (.map f) => simp [derefT, ih]
      | .value (.filter f) => simp [derefT, ih]
      | .mapRef l => simp [derefT, ih]
      | .filterRef l => simp [derefT, ih]

theorem nextT_dead {w : World α} {b : Base} {ts : List (Traits α)} {l : Loc} (h : .filterRef l ∈ ts) (hd : w.views l.1 = none) (stop pos : Nat) : nextT w b stop ts pos = none := by
  induction ts with
  | nil => simp at h
  | cons t ts ih =>
    rcases List.mem_cons.mp h with rfl | h
    · simp [nextT, World.getFilter, World.layerAt, hd]
    · have ih := ih h
      match t with
      | .value (.map f) => simp [nextT, ih]
      | .value (.filter f) => simp [nextT, ih]
      | .mapRef l => simp [nextT, ih]
      | .filterRef l => simp [nextT, ih]

theorem dead_base {w : World α} {b : Base} (h : w.elems b = none) (ts : List (Traits α)) : ∀ stop pos, derefT w b ts pos = none ∧ nextT w b stop ts pos = none := by
  induction ts with
  | nil => intro stop pos; simp [derefT, nextT, h]
  | cons t ts ih =>
    intro stop pos
    have hd := (ih stop pos).1
    have hn := (ih stop pos).2
    match t with
    | .value (.map f) => simp [derefT, nextT, hd, hn]
    | .value (.filter f) => simp [derefT, nextT, hd, hn]
    | .mapRef l => simp [derefT, nextT, hd, hn]
    | .filterRef l => simp [derefT, nextT, hd, hn]

/-- And it can not be used after that: when the container or the view that has the elements is gone, neither `*it` nor `++it` is defined; when a view that has a function of
`transform` that is not small is gone, `*it` is not; when it is a function of `filter`, `++it` is not. -/
theorem C84_ends {before : List (Op α)} {w w' : World α} {v : Nat} {it : Iterator α} {op : Op α} (hw : run World.empty before = some w) (hi : w.begin v = some it)
    (hs : step w op = some w') :
    (∀ c, op = .endContainer c → it.base = .container c → it.deref w' = none ∧ it.next w' = none) ∧
    (∀ u, (op = .endView u ∨ ∃ s, op = .viewOfRvalueView u s) →
      (it.base = .inside u → it.deref w' = none ∧ it.next w' = none) ∧
      (∀ view i s, w.views v = some view → (u, i) ∈ view.chain v → w.layerAt (u, i) = some s → s.small = false →
        match s.layer with
        | .map _ => it.deref w' = none
        | .filter _ => it.next w' = none)) := by
  have hwf := wf_run wf_empty hw
  refine ⟨fun c e hb => ?_, fun u e => ?_⟩
  · subst e
    cases hs
    have := dead_base (w := w.setContainer c none) (b := it.base) (by rw [hb]; simp [World.elems, World.setContainer]) it.traits it.stop it.pos
    exact ⟨this.1, by rw [Iterator.next, this.2]; rfl⟩
  · have hd : w'.views u = none := by
      rcases e with rfl | ⟨s, rfl⟩
      · cases hs; simp [World.dropView]
      · simp only [step, Option.map_eq_some_iff] at hs
        obtain ⟨view, hv, rfl⟩ := hs
        have := hwf.lt_view hv
        simp only [World.addView, World.dropView]
        rw [if_neg (by omega)]; simp
    refine ⟨fun hb => ?_, fun view i s hv hm hl hsm => ?_⟩
    · have := dead_base (w := w') (b := it.base) (by rw [hb]; simp [World.elems, hd]) it.traits it.stop it.pos
      exact ⟨this.1, by rw [Iterator.next, this.2]; rfl⟩
    · obtain ⟨view', hv', -, -, ht⟩ := begin_traits hi
      rw [hv] at hv'; cases hv'
      obtain ⟨s', hs', hmem⟩ := ht (u, i) hm
      rw [hl] at hs'; cases hs'
      obtain ⟨la, sm⟩ := s
      obtain rfl : sm = false := hsm
      cases la with
      | map f => exact derefT_dead (l := (u, i)) (by simpa [traitsFor] using hmem) hd _
      | filter p => simp only [Iterator.next, nextT_dead (l := (u, i)) (by simpa [traitsFor] using hmem) hd]; rfl

theorem range_layers (own : List (Stored α)) (w : World α) (v : Nat) (view : View α) (hv : w.views v = some view) (ho : view.own = own) :
    ((List.range own.length).map fun i => (v, i)).mapM (fun l => (w.layerAt l).map (·.layer)) = some (own.map (·.layer)) := by
  have : ∀ (n : Nat), n ≤ own.length → ((List.range n).map fun i => (v, i)).mapM (fun l => (w.layerAt l).map (·.layer)) = some ((own.take n).map (·.layer)) := by
    intro n
    induction n with
    | zero => intro _; simp
    | succ n ih =>
      intro hn
      rw [List.range_succ, List.map_append, List.mapM_append, ih (by omega), List.take_add_one, List.map_append]
      have : w.layerAt (v, n) = some own[n] := by
        simp only [World.layerAt, hv, Option.bind_some, ho]
        exact List.getElem?_eq_getElem (by omega)
      simp [this, List.getElem?_eq_getElem (show n < own.length by omega)]
  simpa using this own.length (Nat.le_refl _)

theorem mapM_congr_mem {β γ : Type} {f g : β → Option γ} : ∀ {l : List β}, (∀ a ∈ l, f a = g a) → l.mapM f = l.mapM g := by
  intro l
  induction l with
  | nil => intro _; rfl
  | cons a l ih => intro h; rw [List.mapM_cons, List.mapM_cons, h a List.mem_cons_self, ih fun b hb => h b (List.mem_cons_of_mem _ hb)]

/-- Views that are made of containers and views whose parts exist have the elements of those, changed or selected by their function. -/
theorem C84_make {before : List (Op α)} {w : World α} (hw : run World.empty before = some w) (s : Stored α) :
    (∀ c xs, w.containers c = some xs → ∃ w', step w (.viewOf c s) = some w' ∧ Intact w' w.fresh [s.layer] xs) ∧
    (∀ xs, ∃ w', step w (.viewOfRvalue xs s) = some w' ∧ Intact w' w.fresh [s.layer] xs) ∧
    (∀ v ls xs, Intact w v ls xs → ∃ w', step w (.viewOfView v s) = some w' ∧ Intact w' w.fresh (ls ++ [s.layer]) xs ∧ Intact w' v ls xs) ∧
    (∀ v ls xs, Intact w v ls xs → ∃ w', step w (.viewOfRvalueView v s) = some w' ∧ Intact w' w.fresh (ls ++ [s.layer]) xs) := by
  have hwf := wf_run wf_empty hw
  have self : ∀ (w : World α) (view : View α), (w.addView view).views w.fresh = some view := fun w view => by simp [World.addView]
  have other : ∀ (w : World α) (view : View α) {u : Nat}, u < w.fresh → (w.addView view).views u = w.views u := fun w view u h => by
    simp only [World.addView]; rw [if_neg (by omega)]
  refine ⟨fun c xs hc => ?_, fun xs => ?_, fun v ls xs h => ?_, fun v ls xs h => ?_⟩
  · refine ⟨w.addView ⟨[s], [], .container c, []⟩, by simp [step, hc], _, self _ _, hc, ?_⟩
    exact range_layers [s] _ _ _ (self _ _) rfl
  · refine ⟨_, rfl, _, self _ _, by simp [World.elems, self], ?_⟩
    exact range_layers [s] _ _ _ (self _ _) rfl
  · obtain ⟨view, hv, hb, hc⟩ := h
    have hlt := hwf.lt_view hv
    have hmem : ∀ l ∈ view.chain v, l.1 < w.fresh := by
      intro l hl
      simp only [View.chain, List.mem_append, List.mem_map, List.mem_range] at hl
      rcases hl with hl | ⟨i, _, rfl⟩
      · exact Nat.lt_trans (hwf.older v view hv l hl) hlt
      · exact hlt
    let view' : View α := ⟨[s], view.chain v, view.base, []⟩
    have hb' : (w.addView view').elems view.base = some xs := by
      revert hb
      cases view.base with
      | container c => exact id
      | inside u =>
        intro hb
        simp only [World.elems, Option.map_eq_some_iff] at hb ⊢
        obtain ⟨vu, hu, e⟩ := hb
        exact ⟨vu, by rw [other _ _ (hwf.lt_view hu)]; exact hu, e⟩
    have hc' : (view.chain v).mapM (fun l => ((w.addView view').layerAt l).map (·.layer)) = some ls := by
      rw [← hc]
      exact mapM_congr_mem fun l hl => by simp only [World.layerAt, other w view' (hmem l hl)]
    refine ⟨w.addView view', by simp [step, hv, view'], ⟨view', self _ _, hb', ?_⟩, ⟨view, by rw [other _ _ hlt]; exact hv, hb', hc'⟩⟩
    change (view.chain v ++ _).mapM _ = _
    rw [List.mapM_append, hc', range_layers [s] _ _ view' (self _ _) rfl]
    rfl
  · obtain ⟨view, hv, hb, hc⟩ := h
    have hlt := hwf.lt_view hv
    let view' : View α := ⟨view.own ++ [s], view.under, if view.base = .inside v then .inside w.fresh else view.base, view.xs⟩
    have hviews : ∀ u, u < w.fresh → u ≠ v → ((w.dropView v).addView view').views u = w.views u := fun u hu hne => by
      rw [other (w.dropView v) view' hu]
      simp only [World.dropView]; rw [if_neg hne]
    have hself : ((w.dropView v).addView view').views w.fresh = some view' := self (w.dropView v) view'
    refine ⟨(w.dropView v).addView view', by simp [step, hv, view'], view', hself, ?_, ?_⟩
    · change World.elems _ (if view.base = .inside v then .inside w.fresh else view.base) = some xs
      by_cases he : view.base = .inside v
      · rw [if_pos he]
        rw [he] at hb
        simp only [World.elems, hv, Option.map_some] at hb
        simpa [World.elems, hself, view'] using hb
      · rw [if_neg he]
        revert hb he
        cases view.base with
        | container c => exact fun hb _ => hb
        | inside u =>
          intro hb he
          simp only [World.elems, Option.map_eq_some_iff] at hb ⊢
          obtain ⟨vu, hu, e⟩ := hb
          exact ⟨vu, by rw [hviews u (hwf.lt_view hu) fun e => he (by rw [e])]; exact hu, e⟩
    · change (view.under ++ _).mapM _ = _
      rw [View.chain, List.mapM_append, range_layers view.own w v view hv rfl] at hc
      cases hun : view.under.mapM (fun l => (w.layerAt l).map (·.layer)) with
      | none => simp [hun] at hc
      | some lu =>
        simp [hun] at hc
        subst hc
        have : view.under.mapM (fun l => (((w.dropView v).addView view').layerAt l).map (·.layer)) = some lu := by
          rw [← hun]
          exact mapM_congr_mem fun l hl => by
            have := hwf.older v view hv l hl
            simp only [World.layerAt, hviews l.1 (by omega) (by omega)]
        rw [List.mapM_append, this]
        have := range_layers (view.own ++ [s]) ((w.dropView v).addView view') w.fresh view' hself rfl
        change List.mapM _ (List.map (fun i => ((w.dropView v).fresh, i)) _) = _ at this
        change (do let a ← some lu; let b ← List.mapM _ (List.map (fun i => ((w.dropView v).fresh, i)) _); pure (a ++ b)) = _
        rw [this]
        simp

/-! ### Examples -/

/-- A container, a view of its even elements with a predicate that is not small, and a view of that with their tenfold. -/
def exampleOps : List (Op Nat) := [.newContainer [1, 2, 3, 4], .viewOf 0 ⟨.filter (· % 2 == 0), false⟩, .viewOfView 1 ⟨.map (· * 10), true⟩]

example : ((run World.empty exampleOps).bind fun w => (w.begin 2).bind (collect w 4)) = some [20, 40] := by decide +kernel
example : denote [.filter (· % 2 == 0), .map (· * 10)] [1, 2, 3, 4] = [20, 40] := by decide +kernel

/-- The hypotheses of the theorems hold for it. -/
example : ∃ w it, run World.empty exampleOps = some w ∧ Intact w 2 [.filter (· % 2 == 0), .map (· * 10)] [1, 2, 3, 4] ∧ w.begin 2 = some it ∧
    (∀ op ∈ [Op.assign 0 1 6, .endView 2, .newContainer [7]], ¬ Needs it op) ∧ Needs it (.endView 1) := by
  refine ⟨_, _, rfl, ⟨_, rfl, rfl, rfl⟩, rfl, ?_, ?_⟩
  · intro op h
    simp only [List.mem_cons, List.not_mem_nil, or_false] at h
    rcases h with rfl | rfl | rfl
    · exact id
    · simp [Needs, traitsFor]
    · exact id
  · exact Or.inr ⟨.filterRef (1, 0), by simp [traitsFor], 0, Or.inr rfl⟩

/-- After the view of the tenfold is gone and an element was assigned to, the iterator gives the new element; after the view of the even elements is gone it can not be
incremented any more. -/
example : (do
    let w ← run World.empty exampleOps
    let it ← w.begin 2
    let w ← run w [.assign 0 1 6, .endView 2]
    it.deref w) = some 60 := by decide +kernel
example : (do
    let w ← run World.empty exampleOps
    let it ← w.begin 2
    let w ← run w [.endView 1]
    it.next w).isNone = true := by decide +kernel

/-- Small functions only: the views are gone, the iterator can be used. -/
example : (do
    let w ← run World.empty [.newContainer [1, 2, 3], .viewOf 0 ⟨.filter (· % 2 == 1), true⟩, .viewOfRvalueView 1 ⟨.map (· + 1), true⟩]
    let it ← w.begin 2
    let w ← run w [.endView 2, .endView 1]
    collect w 3 it) = some [2, 4] := by decide +kernel

/-- A container in a view: the iterator can not be used after the view was moved into another one. -/
example : (do
    let w ← run World.empty [.viewOfRvalue [1, 2, 3] ⟨.map (· + 1), true⟩]
    let it ← w.begin 0
    let w ← run w [.viewOfRvalueView 0 ⟨.map (· + 1), true⟩]
    it.deref w) = none := by decide +kernel

end Verif.Views.Lifetime
