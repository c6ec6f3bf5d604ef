import Verif.Views.Throwing

/-!
# Joined ranges that are returned by value, by functions that throw

`join_with` of ranges that are returned by value (`algorithms/join_with.cpp` 37-84) keeps the current one of them, and the iterator into it, in the view itself:
all iterators of the view share it. An increment that throws has already changed it.
-/

namespace Verif.Views.Calling

variable {τ σ ρ : Type}

/-- What the calls of functions leave of the state of the view as it is. -/
def Act.keep {S : Type} {X : Type u} (a : Act τ X) : Act (τ × S) X := fun t =>
  match a t.1 with
  | .ok x t' => .ok x (t', t.2)
  | .exn t' => .exn (t', t.2)
  | .ub => .ub

/-- `m_inner` of the view (`algorithms/join_with.cpp` 70-71): the elements of `m_range` from `m_it` on, `none` if there is no range yet. -/
abbrev InnerState (ρ : Type) := Option (List ρ)

/-- `m_inner` of the iterator (`algorithms/join_with.cpp` 78-92, 194): that it is in the range of the view, or the rest of the joiner. -/
inductive JoinInV (ρ : Type) where
  | inner
  | joiner (rest : List ρ)

/-- `with_inner_range::set` (`algorithms/join_with.cpp` 45-48): the range is made before the old one is destroyed (`tv/variant.cpp` 217-228), so that nothing has
changed if that throws. -/
def setInner (O : RngC τ σ (List ρ)) (t : σ) : Act (τ × InnerState ρ) Unit := fun s =>
  match O.deref t s.1 with
  | .ok r t' => .ok () (t', some r)
  | .exn t' => .exn (t', s.2)
  | .ub => .ub

/-- `with_inner_range::dereference` (`algorithms/join_with.cpp` 50-52). -/
def innerDeref : Act (τ × InnerState ρ) ρ := fun s =>
  match s.2 with
  | some (x :: _) => .ok x s
  | _ => .ub

/-- `with_inner_range::increment` (`algorithms/join_with.cpp` 54-56). -/
def innerIncrement : Act (τ × InnerState ρ) Unit := fun s =>
  match s.2 with
  | some (_ :: xs) => .ok () (s.1, some xs)
  | _ => .ub

/-- `with_inner_range::is_empty` (`algorithms/join_with.cpp` 58-60). -/
def innerEmpty : Act (τ × InnerState ρ) Bool := fun s =>
  match s.2 with
  | some xs => .ok xs.isEmpty s
  | none => .ub

/-- `normalize` with `do_normalize` (`algorithms/join_with.cpp` 196-226). -/
def joinNormalizeV (O : RngC τ σ (List ρ)) (js : List ρ) : Nat → σ → JoinInV ρ → Act (τ × InnerState ρ) (σ × JoinInV ρ)
  | 0, _, _ => .ub
  | f + 1, t, i => do
    if ← (O.atEnd t).keep then pure (t, i) else
      match i with
      | .inner => do
        if ← innerEmpty then do
          let t ← (O.next t).keep
          joinNormalizeV O js f t (.joiner js)
        else pure (t, i)
      | .joiner (_ :: _) => pure (t, i)
      | .joiner [] => do
        setInner O t
        joinNormalizeV O js f t .inner

/-- `join_with_iterator` (`algorithms/join_with.cpp` 167-191) for ranges that are returned by value. The state of the view goes with that of the functions. -/
def joinV (O : RngC τ σ (List ρ)) (js : List ρ) (N : Nat) : RngC (τ × InnerState ρ) (σ × JoinInV ρ) ρ where
  atEnd s := (O.atEnd s.1).keep
  deref s :=
    match s.2 with
    | .inner => innerDeref
    | .joiner (x :: _) => pure x
    | .joiner [] => .ub
  next s :=
    match s.2 with
    | .inner => do
      innerIncrement
      joinNormalizeV O js N s.1 .inner
    | .joiner (_ :: xs) => joinNormalizeV O js N s.1 (.joiner xs)
    | .joiner [] => .ub

/-- The first iterator (`algorithms/join_with.cpp` 154-165, 255-261). -/
def joinBeginV (O : RngC τ σ (List ρ)) (js : List ρ) (N : Nat) (first : σ) : Act (τ × InnerState ρ) (σ × JoinInV ρ) :=
  joinNormalizeV O js N first (.joiner [])

/-- `for (auto it = view.begin(); it != last; it = it + 1) see(*it);` up to its end or the first exception. -/
def joinLoopV (O : RngC τ σ (List ρ)) (js : List ρ) (N f : Nat) (first : σ) (t : τ) : Stop (τ × InnerState ρ) (σ × JoinInV ρ) ρ :=
  match joinBeginV O js N first (t, none) with
  | .ok it s => loopC (joinV O js N) f it false s
  | .exn s => .threw [] (first, .joiner []) false s
  | .ub => .ub

/-! ## Proofs -/

/-- What holds after something that is started in one state. -/
def PostAt (quiet : Prop) (e : Ended τ X) (Q : X → τ → Prop) : Prop :=
  match e with
  | .ok x t => Q x t
  | .exn _ => ¬ quiet
  | .ub => False

variable {quiet : Prop}

theorem PostAt.keep {S : Type} {X Y : Type} {a : Act τ X} {x : X} {g : X → Act (τ × S) Y} {Q : Y → τ × S → Prop} {t : τ} {s : S} (h : Post quiet a (· = x))
    (k : ∀ t', PostAt quiet (g x (t', s)) Q) : PostAt quiet ((a.keep (S := S)).bind g (t, s)) Q := by
  have := h t
  unfold Act.bind Act.keep
  cases e : a t with
  | ub => rw [e] at this; exact this
  | exn t' => rw [e] at this; exact this
  | ok y t' => rw [e] at this; have this : y = x := this; subst this; exact k t'

/-- Where an iterator is, and the state of the view with it: the elements that are left. -/
def AtV (quiet : Prop) (O : RngC τ σ (List ρ)) (js : List ρ) (D : Nat) (it : σ × JoinInV ρ) (sh : InnerState ρ) (rest : List ρ) : Prop :=
  (VisitsC quiet O it.1 [] ∧ rest = []) ∨
  ∃ R Rs, VisitsC quiet O it.1 (R :: Rs) ∧ Rs.length < D ∧
    match it.2 with
    | .inner => ∃ y ys, sh = some (y :: ys) ∧ rest = (y :: ys) ++ joinTail js Rs
    | .joiner ks => ∃ k ks', ks = k :: ks' ∧ rest = ks ++ (R ++ joinTail js Rs)

mutual

theorem joinNormalizeV_inner {O : RngC τ σ (List ρ)} {js : List ρ} {D : Nat} : ∀ (Rs : List (List ρ)) (ys : List ρ) {it : σ} {R : List ρ} {f : Nat} (t : τ), VisitsC quiet O it (R :: Rs) →
    Rs.length < D → 2 * Rs.length + 2 ≤ f →
    PostAt quiet (joinNormalizeV O js f it .inner (t, some ys)) fun it' s => AtV quiet O js D it' s.2 (ys ++ joinTail js Rs)
  | Rs, y :: ys, it, R, f + 1, t, hO, hD, _ => PostAt.keep hO.1 fun _ => Or.inr ⟨R, Rs, hO, hD, y, ys, rfl, rfl⟩
  | [], [], it, R, f + 2, t, ⟨o1, _, it', o3, o4⟩, _, _ => PostAt.keep o1 fun _ => PostAt.keep o3 fun _ => PostAt.keep o4 fun _ => Or.inl ⟨o4, rfl⟩
  | R' :: Rs, [], it, R, f + 1, t, ⟨o1, _, it', o3, o4⟩, hD, hf => by
    rw [List.length_cons] at hf hD
    refine PostAt.keep o1 fun _ => PostAt.keep o3 fun t' => ?_
    rw [List.nil_append, joinTail_cons]
    exact joinNormalizeV_joiner Rs js t' _ o4 (by omega) (by omega)
  termination_by Rs => (Rs.length, 1)

theorem joinNormalizeV_joiner {O : RngC τ σ (List ρ)} {js : List ρ} {D : Nat} : ∀ (Rs : List (List ρ)) (ks : List ρ) {it : σ} {R : List ρ} {f : Nat} (t : τ) (sh : InnerState ρ), VisitsC quiet O it (R :: Rs) →
    Rs.length < D → 2 * Rs.length + 3 ≤ f →
    PostAt quiet (joinNormalizeV O js f it (.joiner ks) (t, sh)) fun it' s => AtV quiet O js D it' s.2 (ks ++ (R ++ joinTail js Rs))
  | Rs, k :: ks, it, R, f + 1, t, sh, hO, hD, _ => PostAt.keep hO.1 fun _ => Or.inr ⟨R, Rs, hO, hD, k, ks, rfl, rfl⟩
  | Rs, [], it, R, f + 1, t, sh, hO, hD, hf => by
    refine PostAt.keep hO.1 fun t' => ?_
    have h := hO.2.1 t'
    show PostAt quiet ((setInner O it).bind (fun _ => joinNormalizeV O js f it .inner) (t', sh)) _
    unfold Act.bind setInner
    dsimp only
    cases e : O.deref it t' with
    | ub => rw [e] at h; exact h
    | exn t2 => rw [e] at h; exact h
    | ok r t2 =>
      rw [e] at h
      have h : r = R := h
      subst h
      exact joinNormalizeV_inner Rs r t2 hO hD (by omega)
  termination_by Rs => (Rs.length + 1, 0)

end

theorem joinNext_post {O : RngC τ σ (List ρ)} {js : List ρ} {D : Nat} {it : σ × JoinInV ρ} {sh : InnerState ρ} {x : ρ} {rest : List ρ} (t : τ)
    (h : AtV quiet O js D it sh (x :: rest)) :
    PostAt quiet ((joinV O js (2 * D + 1)).next it (t, sh)) fun it' s => AtV quiet O js D it' s.2 rest := by
  obtain ⟨it, i⟩ := it
  rcases h with ⟨_, h⟩ | ⟨R, Rs, hO, hD, h⟩
  · exact absurd h (by simp)
  · cases i with
    | inner =>
      obtain ⟨y, ys, rfl, h⟩ := h
      obtain ⟨rfl, rfl⟩ := List.cons.inj h
      exact joinNormalizeV_inner Rs ys t hO hD (by omega)
    | joiner ks =>
      obtain ⟨k, ks, rfl, h⟩ := h
      obtain ⟨rfl, rfl⟩ := List.cons.inj h
      exact joinNormalizeV_joiner Rs ks t sh hO hD (by omega)

theorem joinDeref_post {O : RngC τ σ (List ρ)} {js : List ρ} {D N : Nat} {it : σ × JoinInV ρ} {sh : InnerState ρ} {x : ρ} {rest : List ρ} (t : τ)
    (h : AtV quiet O js D it sh (x :: rest)) : (joinV O js N).deref it (t, sh) = .ok x (t, sh) := by
  obtain ⟨it, i⟩ := it
  rcases h with ⟨_, h⟩ | ⟨R, Rs, hO, hD, h⟩
  · exact absurd h (by simp)
  · cases i with
    | inner => obtain ⟨y, ys, rfl, h⟩ := h; obtain ⟨rfl, rfl⟩ := List.cons.inj h; rfl
    | joiner ks => obtain ⟨k, ks, rfl, h⟩ := h; obtain ⟨rfl, rfl⟩ := List.cons.inj h; rfl

theorem joinAtEnd_post {O : RngC τ σ (List ρ)} {js : List ρ} {D : Nat} {it : σ × JoinInV ρ} {sh : InnerState ρ} {rest : List ρ}
    (h : AtV quiet O js D it sh rest) : Post quiet (O.atEnd it.1) (· = rest.isEmpty) := by
  obtain ⟨it, i⟩ := it
  rcases h with ⟨h, rfl⟩ | ⟨R, Rs, hO, hD, h⟩
  · exact h
  · cases i with
    | inner => obtain ⟨y, ys, rfl, rfl⟩ := h; exact hO.1
    | joiner ks => obtain ⟨k, ks, rfl, rfl⟩ := h; exact hO.1

/-- How a loop ends that is not taken up again. -/
def Stop.First (quiet : Prop) (all : List ρ) : Stop τ σ ρ → Prop
  | .finished seen _ => seen = all
  | .threw seen _ _ _ => ¬ quiet ∧ seen <+: all
  | .ub => False
  | .more => False

theorem Stop.First.cons {all : List ρ} {x : ρ} {e : Stop τ σ ρ} (h : e.First quiet all) : (e.cons x).First quiet (x :: all) := by
  cases e with
  | finished seen t => exact congrArg (x :: ·) h
  | threw seen s u t => exact ⟨h.1, List.cons_prefix_cons.2 ⟨rfl, h.2⟩⟩
  | ub => exact h
  | more => exact h

mutual

theorem joinLoop_before {O : RngC τ σ (List ρ)} {js : List ρ} {D : Nat} : ∀ (rest : List ρ) {f : Nat} {it : σ × JoinInV ρ} {sh : InnerState ρ} (t : τ), AtV quiet O js D it sh rest → 2 * rest.length < f →
    (loopC (joinV O js (2 * D + 1)) f it false (t, sh)).First quiet rest
  | rest, 0, _, _, _, _, hf => by omega
  | rest, f + 1, it, sh, t, h, hf => by
    have h1 := joinAtEnd_post h t
    unfold loopC
    rw [show (joinV O js (2 * D + 1)).atEnd it (t, sh) = (O.atEnd it.1).keep (t, sh) from rfl]
    unfold Act.keep
    dsimp only
    cases e1 : O.atEnd it.1 t with
    | ub => rw [e1] at h1; exact h1
    | exn t1 => rw [e1] at h1; exact ⟨h1, List.nil_prefix⟩
    | ok b t1 =>
      rw [e1] at h1
      have h1 : b = rest.isEmpty := h1
      subst h1
      cases rest with
      | nil => exact rfl
      | cons x rest =>
        rw [List.length_cons] at hf
        simp only [List.isEmpty_cons]
        rw [joinDeref_post t1 h]
        exact (joinLoop_after rest x t1 h (by omega)).cons
  termination_by rest f => (f, 0)

theorem joinLoop_after {O : RngC τ σ (List ρ)} {js : List ρ} {D : Nat} : ∀ (rest : List ρ) (x : ρ) {f : Nat} {it : σ × JoinInV ρ} {sh : InnerState ρ} (t : τ), AtV quiet O js D it sh (x :: rest) → 2 * rest.length + 1 < f →
    (loopC (joinV O js (2 * D + 1)) f it true (t, sh)).First quiet rest
  | rest, x, 0, _, _, _, _, hf => by omega
  | rest, x, f + 1, it, sh, t, h, hf => by
    have h1 := joinNext_post t h
    unfold loopC
    cases e1 : (joinV O js (2 * D + 1)).next it (t, sh) with
    | ub => rw [e1] at h1; exact h1
    | exn t1 => rw [e1] at h1; exact ⟨h1, List.nil_prefix⟩
    | ok it' s => rw [e1] at h1; exact joinLoop_before rest s.1 h1 (by omega)
  termination_by rest x f => (f, 0)

end

theorem joinLoopV_first {O : RngC τ σ (List ρ)} {js : List ρ} {D f : Nat} {Rs : List (List ρ)} {first : σ} (t : τ) (h : VisitsC quiet O first Rs) (hD : Rs.length ≤ D)
    (hf : 2 * (js.intercalate Rs).length < f) : (joinLoopV O js (2 * D + 1) f first t).First quiet (js.intercalate Rs) := by
  have h1 : PostAt quiet (joinBeginV O js (2 * D + 1) first (t, none)) fun it s => AtV quiet O js D it s.2 (js.intercalate Rs) := by
    cases Rs with
    | nil => exact PostAt.keep h fun _ => Or.inl ⟨h, rfl⟩
    | cons R Rs =>
      rw [List.length_cons] at hD
      rw [intercalate_eq_tail]
      exact joinNormalizeV_joiner Rs [] t none h (by omega) (by omega)
  unfold joinLoopV
  cases e : joinBeginV O js (2 * D + 1) first (t, none) with
  | ub => rw [e] at h1; exact h1
  | exn s => rw [e] at h1; exact ⟨h1, List.nil_prefix⟩
  | ok it s => rw [e] at h1; exact joinLoop_before _ s.1 h1 hf

/-! ## The theorems -/

/-- **C118**: a loop over the joined ranges that are returned by value, by functions that may throw at any call, sees all elements, or a first part of them and stops
with the exception; nothing undefined happens, and nothing throws unless a function does. Missing: that such a loop can be taken up again, see
`C118_join_by_value_violated`. -/
theorem C118_join_by_value_partial {D f : Nat} (p : PipeC τ (List ρ)) (js : List ρ) (h : p.Fits D) (hf : 2 * (js.intercalate p.denote).length < f) (t : τ) :
    match p.build D t with
    | .ok B t' => (joinLoopV B.ops js (2 * D + 1) f B.first t').First p.Quiet (js.intercalate p.denote)
    | .exn _ => ¬ p.Quiet
    | .ub => False := by
  have h1 := C116_view p h t
  cases e : p.build D t with
  | ub => rw [e] at h1; exact h1
  | exn t' => rw [e] at h1; exact h1
  | ok B t' => rw [e] at h1; exact joinLoopV_first t' h1 (p.length_le h) hf

/-- A function that gives ranges and throws at the second call. -/
def twoOf : Fn Nat Nat (List Nat) where
  run a t := (if t = 1 then none else some [a, a + 10], t + 1)
  value a := [a, a + 10]
  agrees a t b h := by
    dsimp only at h
    split at h
    · exact absurd h (by simp)
    · exact (Option.some.inj h).symm

/-- The ranges that it gives for three elements. -/
def threeRanges : PipeC Nat (List Nat) := .map twoOf (.elements [1, 2, 3])

example : threeRanges.Fits 3 := by simp [threeRanges, PipeC.Fits]

/-- The loop over them, joined; `none` if it does not end or for undefined behaviour. -/
def joinedSeen (js : List Nat) (attempts t : Nat) : Option (List Nat × Bool) :=
  match joinBeginV (mapC twoOf (elementsC [1, 2, 3])) js 7 0 (t, none) with
  | .ok it s =>
    match retryC (joinV (mapC twoOf (elementsC [1, 2, 3])) js 7) 40 attempts it false s with
    | .finished seen _ => some (seen, true)
    | .threw seen _ _ _ => some (seen, false)
    | .ub => none
    | .more => none
  | .exn _ => some ([], false)
  | .ub => none

example : joinedSeen [] 0 0 = some ([1, 11], false) := by decide +kernel
example : joinedSeen [] 0 2 = some ([1, 11, 2, 12, 3, 13], true) := by decide +kernel
example : joinedSeen [0] 1 0 = some ([1, 11, 0, 2, 12, 0, 3, 13], true) := by decide +kernel

/-- **C118**, violated: a loop that the exception has stopped cannot be taken up again where its iterator was left, as it can for references (`C116_view_retry`).
The state that the iterators share has been incremented to the end of a range, and the next increment goes beyond it. -/
theorem C118_join_by_value_violated : ∃ it s, joinBeginV (mapC twoOf (elementsC [1, 2, 3])) [] 7 0 (0, none) = .ok it s ∧
    retryC (joinV (mapC twoOf (elementsC [1, 2, 3])) [] 7) 40 1 it false s = .ub := ⟨_, _, rfl, rfl⟩

end Verif.Views.Calling
