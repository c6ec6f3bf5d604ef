import Verif.Containers.Iface

/-!
# Any number of objects

A program has any number of container objects, which share one heap. It constructs them (from
nothing, or by copying or moving another object), uses them one at a time or two at a time
(assignment, swap; both operands may be the same object), and destroys them, in any order.
`Sys` is a kind of object with its operations and their specification, `Sys.Laws` says that
each operation by itself meets the specification and touches no block of another object, and
`world_refines` concludes that every history of a whole program meets the specification and
that every allocated block is owned by exactly one living object at every moment.
-/

namespace Verif.Containers

open Verif

/-- What construction can do: the new object, an exception (with the state that is left), or
undefined behaviour. -/
inductive Made (S T : Type) where
  | ok (s : T)
  | exn (s : S)
  | ub

/-- The outcome with the given exception flag. -/
def Made.of {S T : Type} (thrown : Bool) (s : S) (t : T) : Made S T := if thrown then .exn s else .ok t

@[simp] theorem Made.of_true {S T : Type} (s : S) (t : T) : Made.of true s t = .exn s := rfl
@[simp] theorem Made.of_false {S T : Type} (s : S) (t : T) : Made.of false s t = .ok t := rfl

/-- A kind of object. `U`, `B`, `C`, `X` name the operations on one object, on two objects, the
constructors, and the constructors that take another object. `A` is what the user knows of an
object. -/
structure Sys (V O A U B C X : Type) where
  own : O → Nat → Prop
  un : U → Heap V → O → Out (Heap V × O)
  bin : B → Heap V → O → O → Out (Heap V × O × O)
  self : B → Heap V → O → Out (Heap V × O)
  ctor : C → Heap V → Made (Heap V) (Heap V × O)
  ctorFrom : X → Heap V → O → Made (Heap V × O) (Heap V × O × O)
  dtor : Heap V → O → Option (Heap V)
  unS : U → A → A × Bool
  binS : B → A → A → (A × A) × Bool
  selfS : B → A → A × Bool
  ctorS : C → A × Bool
  ctorFromS : X → A → (A × A) × Bool
  unP : U → A → Prop
  binP : B → A → A → Prop
  selfP : B → A → Prop
  ctorP : C → Prop
  ctorFromP : X → A → Prop

/-- Operations of a program: `i`, `j` name objects. -/
inductive WOp (U B C X : Type) where
  /-- use object `i` -/
  | un (i : Nat) (u : U)
  /-- use objects `i` and `j`, possibly the same -/
  | bin (i j : Nat) (b : B)
  /-- construct object `i` -/
  | make (i : Nat) (c : C)
  /-- construct object `i` from object `j` -/
  | makeFrom (i j : Nat) (x : X)
  /-- destroy object `i` -/
  | drop (i : Nat)

namespace Sys

variable {V O A U B C X : Type}

/-- One step of a program. -/
def step (S : Sys V O A U B C X) (w : Heap V × (Nat → Option O)) :
    WOp U B C X → Out (Heap V × (Nat → Option O))
  | .un i u =>
    match w.2 i with
    | none => .ub
    | some o =>
      match S.un u w.1 o with
      | .ok r => .ok (r.1, upd w.2 i (some r.2))
      | .exn r => .exn (r.1, upd w.2 i (some r.2))
      | .ub => .ub
  | .bin i j b =>
    match w.2 i, w.2 j with
    | some o, some t =>
      if i = j then
        match S.self b w.1 o with
        | .ok r => .ok (r.1, upd w.2 i (some r.2))
        | .exn r => .exn (r.1, upd w.2 i (some r.2))
        | .ub => .ub
      else
        match S.bin b w.1 o t with
        | .ok r => .ok (r.1, upd (upd w.2 i (some r.2.1)) j (some r.2.2))
        | .exn r => .exn (r.1, upd (upd w.2 i (some r.2.1)) j (some r.2.2))
        | .ub => .ub
    | _, _ => .ub
  | .make i c =>
    match w.2 i with
    | some _ => .ub
    | none =>
      match S.ctor c w.1 with
      | .ok r => .ok (r.1, upd w.2 i (some r.2))
      | .exn h => .exn (h, w.2)
      | .ub => .ub
  | .makeFrom i j x =>
    match w.2 i, w.2 j with
    | none, some t =>
      match S.ctorFrom x w.1 t with
      | .ok r => .ok (r.1, upd (upd w.2 i (some r.2.1)) j (some r.2.2))
      | .exn r => .exn (r.1, upd w.2 j (some r.2))
      | .ub => .ub
    | _, _ => .ub
  | .drop i =>
    match w.2 i with
    | none => .ub
    | some o =>
      match S.dtor w.1 o with
      | some h => .ok (h, upd w.2 i none)
      | none => .ub

/-- What a step means: nothing is shared between objects. -/
def spec (S : Sys V O A U B C X) (w : Nat → Option A) : WOp U B C X → (Nat → Option A) × Bool
  | .un i u =>
    match w i with
    | none => (w, false)
    | some a => (upd w i (some (S.unS u a).1), (S.unS u a).2)
  | .bin i j b =>
    match w i, w j with
    | some a, some a' =>
      if i = j then (upd w i (some (S.selfS b a).1), (S.selfS b a).2)
      else (upd (upd w i (some (S.binS b a a').1.1)) j (some (S.binS b a a').1.2), (S.binS b a a').2)
    | _, _ => (w, false)
  | .make i c => (if (S.ctorS c).2 then w else upd w i (some (S.ctorS c).1), (S.ctorS c).2)
  | .makeFrom i j x =>
    match w j with
    | none => (w, false)
    | some a =>
      (if (S.ctorFromS x a).2 then upd w j (some (S.ctorFromS x a).1.2)
        else upd (upd w i (some (S.ctorFromS x a).1.1)) j (some (S.ctorFromS x a).1.2), (S.ctorFromS x a).2)
  | .drop i => (upd w i none, false)

/-- What a step requires: the objects exist, and their state allows the operation. -/
def pre (S : Sys V O A U B C X) (w : Nat → Option A) : WOp U B C X → Prop
  | .un i u => ∃ a, w i = some a ∧ S.unP u a
  | .bin i j b => ∃ a a', w i = some a ∧ w j = some a' ∧ if i = j then S.selfP b a else S.binP b a a'
  | .make i c => w i = none ∧ S.ctorP c
  | .makeFrom i j x => w i = none ∧ ∃ a, w j = some a ∧ S.ctorFromP x a
  | .drop i => ∃ a, w i = some a

/-- Each operation by itself. `inv h o a`: in heap `h`, the object `o` is what the user knows
as `a`. -/
structure Laws (S : Sys V O A U B C X) (inv : Heap V → O → A → Prop) : Prop where
  owned : ∀ {h o a b}, inv h o a → S.own o b → h.blk b ≠ none
  keep : ∀ {h h' o a}, inv h o a → (∀ b, S.own o b → h'.blk b = h.blk b) → inv h' o a
  un : ∀ {h o a} u, Fresh h → inv h o a → S.unP u a →
    ∃ h' o', S.un u h o = Out.of (S.unS u a).2 (h', o') ∧ inv h' o' (S.unS u a).1 ∧
      Frame (S.own o) h (S.own o') h'
  bin : ∀ {h o t a a'} b, Fresh h → inv h o a → inv h t a' → (∀ b, S.own o b → ¬ S.own t b) → S.binP b a a' →
    ∃ h' o' t', S.bin b h o t = Out.of (S.binS b a a').2 (h', o', t') ∧ inv h' o' (S.binS b a a').1.1 ∧
      inv h' t' (S.binS b a a').1.2 ∧ (∀ b, S.own o' b → ¬ S.own t' b) ∧
      Frame (fun b => S.own o b ∨ S.own t b) h (fun b => S.own o' b ∨ S.own t' b) h'
  self : ∀ {h o a} b, Fresh h → inv h o a → S.selfP b a →
    ∃ h' o', S.self b h o = Out.of (S.selfS b a).2 (h', o') ∧ inv h' o' (S.selfS b a).1 ∧
      Frame (S.own o) h (S.own o') h'
  ctor : ∀ {h} c, Fresh h → S.ctorP c →
    ∃ h' o, S.ctor c h = Made.of (S.ctorS c).2 h' (h', o) ∧
      ((S.ctorS c).2 = true → Frame (fun _ => False) h (fun _ => False) h') ∧
      ((S.ctorS c).2 = false → inv h' o (S.ctorS c).1 ∧ Frame (fun _ => False) h (S.own o) h')
  ctorFrom : ∀ {h t a} x, Fresh h → inv h t a → S.ctorFromP x a →
    ∃ h' o t', S.ctorFrom x h t = Made.of (S.ctorFromS x a).2 (h', t') (h', o, t') ∧
      inv h' t' (S.ctorFromS x a).1.2 ∧
      ((S.ctorFromS x a).2 = true → Frame (S.own t) h (S.own t') h') ∧
      ((S.ctorFromS x a).2 = false → inv h' o (S.ctorFromS x a).1.1 ∧
        (∀ b, S.own o b → ¬ S.own t' b) ∧ Frame (S.own t) h (fun b => S.own o b ∨ S.own t' b) h')
  dtor : ∀ {h o a}, inv h o a → ∃ h', S.dtor h o = some h' ∧ Frame (S.own o) h (fun _ => False) h'

/-- The program as the user sees it: every object is what it should be, no two objects share
storage, and every allocated block belongs to an object. -/
structure Rel (S : Sys V O A U B C X) (inv : Heap V → O → A → Prop)
    (w : Heap V × (Nat → Option O)) (s : Nat → Option A) : Prop where
  fresh : Fresh w.1
  same : ∀ i, (w.2 i).isSome = (s i).isSome
  good : ∀ i o a, w.2 i = some o → s i = some a → inv w.1 o a
  apart : ∀ i j o t, w.2 i = some o → w.2 j = some t → i ≠ j → ∀ b, S.own o b → ¬ S.own t b
  noLeak : ∀ b, w.1.blk b ≠ none → ∃ i o, w.2 i = some o ∧ S.own o b

variable {S : Sys V O A U B C X} {inv : Heap V → O → A → Prop}

theorem Rel.obj {w : Heap V × (Nat → Option O)} {s : Nat → Option A} (R : S.Rel inv w s) {i : Nat} {a : A}
    (h : s i = some a) : ∃ o, w.2 i = some o ∧ inv w.1 o a := by
  have := R.same i
  rw [h, Option.isSome_some] at this
  obtain ⟨o, ho⟩ := Option.isSome_iff_exists.1 this
  exact ⟨o, ho, R.good i o a ho h⟩

theorem Rel.absent {w : Heap V × (Nat → Option O)} {s : Nat → Option A} (R : S.Rel inv w s) {i : Nat}
    (h : s i = none) : w.2 i = none := by
  have := R.same i
  rw [h, Option.isSome_none, Option.isSome_eq_false_iff, Option.isNone_iff_eq_none] at this
  exact this

/-- A step that replaces some objects: `K` are the slots it may change. -/
theorem Rel.change (L : S.Laws inv) {w : Heap V × (Nat → Option O)} {s : Nat → Option A} (R : S.Rel inv w s)
    {h' : Heap V} {w' : Nat → Option O} {s' : Nat → Option A} {K : Nat → Prop} {G G' : Nat → Prop}
    (hG : ∀ b, G b ↔ ∃ i o, K i ∧ w.2 i = some o ∧ S.own o b)
    (hG' : ∀ b, G' b ↔ ∃ i o, K i ∧ w' i = some o ∧ S.own o b)
    (fr : Frame G w.1 G' h')
    (ho : ∀ i, ¬ K i → w' i = w.2 i ∧ s' i = s i)
    (hs : ∀ i, K i → (w' i).isSome = (s' i).isSome)
    (hg : ∀ i o a, K i → w' i = some o → s' i = some a → inv h' o a)
    (ha : ∀ i j o t, K i → K j → w' i = some o → w' j = some t → i ≠ j → ∀ b, S.own o b → ¬ S.own t b) :
    S.Rel inv (h', w') s' := by
  -- an object outside `K` owns nothing in `G`
  have out : ∀ i o, ¬ K i → w.2 i = some o → ∀ b, S.own o b → ¬ G b := by
    intro i o hk hi b hb hg
    obtain ⟨j, t, hj, hjt, htb⟩ := (hG b).1 hg
    exact R.apart i j o t hi hjt (fun e => hk (e ▸ hj)) b hb htb
  have outw : ∀ i o, w.2 i = some o → ∃ a, s i = some a ∧ inv w.1 o a := by
    intro i o hi
    have := R.same i
    rw [hi, Option.isSome_some] at this
    obtain ⟨a, ha⟩ := Option.isSome_iff_exists.1 this.symm
    exact ⟨a, ha, R.good i o a hi ha⟩
  -- and nothing in `G'`
  have out' : ∀ i o, ¬ K i → w.2 i = some o → ∀ b, S.own o b → ¬ G' b := by
    intro i o hk hi b hb hg
    obtain ⟨a, _, hv⟩ := outw i o hi
    exact L.owned hv hb (fr.new b (out i o hk hi b hb) hg)
  refine ⟨fr.fresh R.fresh, ?_, ?_, ?_, ?_⟩
  · intro i
    by_cases hk : K i
    · exact hs i hk
    · simp only [(ho i hk).1, (ho i hk).2]; exact R.same i
  · intro i o a h1 h2
    by_cases hk : K i
    · exact hg i o a hk h1 h2
    · simp only [(ho i hk).1] at h1
      rw [(ho i hk).2] at h2
      refine L.keep (R.good i o a h1 h2) (fun b hb => ?_)
      exact fr.keep b (out i o hk h1 b hb) (out' i o hk h1 b hb)
  · intro i j o t h1 h2 hij b hb1 hb2
    by_cases hi : K i
    · by_cases hj : K j
      · exact ha i j o t hi hj h1 h2 hij b hb1 hb2
      · simp only [(ho j hj).1] at h2
        exact out' j t hj h2 b hb2 ((hG' b).2 ⟨i, o, hi, h1, hb1⟩)
    · simp only [(ho i hi).1] at h1
      by_cases hj : K j
      · exact out' i o hi h1 b hb1 ((hG' b).2 ⟨j, t, hj, h2, hb2⟩)
      · simp only [(ho j hj).1] at h2
        exact R.apart i j o t h1 h2 hij b hb1 hb2
  · intro b hb
    by_cases h1 : G' b
    · obtain ⟨i, o, _, h2, h3⟩ := (hG' b).1 h1
      exact ⟨i, o, h2, h3⟩
    · by_cases h2 : G b
      · exact absurd (fr.gone b h2 h1) hb
      · have := fr.keep b h2 h1
        rw [show (h', w').1.blk b = h'.blk b from rfl, this] at hb
        obtain ⟨i, o, h3, h4⟩ := R.noLeak b hb
        have hk : ¬ K i := fun hk => h2 ((hG b).2 ⟨i, o, hk, h3, h4⟩)
        exact ⟨i, o, by simp only [(ho i hk).1]; exact h3, h4⟩

/-- One step of a program meets its specification. -/
theorem step_ok (L : S.Laws inv) (w : Heap V × (Nat → Option O)) (s : Nat → Option A) (op : WOp U B C X)
    (R : S.Rel inv w s) (hp : S.pre s op) :
    ∃ w', S.step w op = Out.of (S.spec s op).2 w' ∧ S.Rel inv w' (S.spec s op).1 := by
  -- replacing one object
  have one : ∀ {i : Nat} {h' : Heap V} {p : Option O} {q : Option A},
      Frame (fun b => ∃ o, w.2 i = some o ∧ S.own o b) w.1 (fun b => ∃ o, p = some o ∧ S.own o b) h' →
      p.isSome = q.isSome → (∀ o a, p = some o → q = some a → inv h' o a) →
      S.Rel inv (h', upd w.2 i p) (upd s i q) := by
    intro i h' p q fr hs hg
    refine R.change L (K := fun k => k = i) ?_ ?_ fr ?_ ?_ ?_ ?_
    · intro b; constructor
      · rintro ⟨o, h1, h2⟩; exact ⟨i, o, rfl, h1, h2⟩
      · rintro ⟨_, o, rfl, h1, h2⟩; exact ⟨o, h1, h2⟩
    · intro b; constructor
      · rintro ⟨o, h1, h2⟩; exact ⟨i, o, rfl, by simp [h1], h2⟩
      · rintro ⟨_, o, rfl, h1, h2⟩; exact ⟨o, by simpa using h1, h2⟩
    · intro k hk; exact ⟨upd_other _ _ hk, upd_other _ _ hk⟩
    · rintro k rfl; simpa using hs
    · rintro k o a rfl h1 h2; exact hg o a (by simpa using h1) (by simpa using h2)
    · rintro k j o t rfl rfl h1 h2 h3; exact absurd rfl h3
  have single : ∀ {i : Nat} {o : O} {h' : Heap V} {o' : O} {a' : A}, w.2 i = some o →
      Frame (S.own o) w.1 (S.own o') h' → inv h' o' a' →
      S.Rel inv (h', upd w.2 i (some o')) (upd s i (some a')) := by
    intro i o h' o' a' hi fr hv
    refine one (fr.congr (fun b => ?_) (fun b => ?_)) rfl ?_
    · simp [hi]
    · simp
    · intro x y h1 h2; cases h1; cases h2; exact hv
  -- replacing two objects
  have double : ∀ {i j : Nat} {G : Nat → Prop} {h' : Heap V} {o' t' : O} {a b : A}, i ≠ j →
      (∀ c, G c ↔ ∃ k o, (k = i ∨ k = j) ∧ w.2 k = some o ∧ S.own o c) →
      Frame G w.1 (fun b => S.own o' b ∨ S.own t' b) h' → inv h' o' a → inv h' t' b →
      (∀ b, S.own o' b → ¬ S.own t' b) →
      S.Rel inv (h', upd (upd w.2 i (some o')) j (some t')) (upd (upd s i (some a)) j (some b)) := by
    intro i j G h' o' t' a b hij hG fr v1 v2 hap
    have e1 : ∀ {Y : Type} (f : Nat → Option Y) (x y : Option Y), upd (upd f i x) j y i = x := by
      intro Y f x y; rw [upd_other _ _ hij, upd_same]
    refine R.change L (K := fun k => k = i ∨ k = j) hG ?_ fr ?_ ?_ ?_ ?_
    · intro c; constructor
      · rintro (h | h)
        · exact ⟨i, o', .inl rfl, e1 _ _ _, h⟩
        · exact ⟨j, t', .inr rfl, upd_same _ _ _, h⟩
      · rintro ⟨k, o, rfl | rfl, h1, h2⟩
        · rw [e1] at h1; cases h1; exact .inl h2
        · rw [upd_same] at h1; cases h1; exact .inr h2
    · intro k hk
      simp only [not_or] at hk
      constructor
      · rw [upd_other _ _ hk.2, upd_other _ _ hk.1]
      · rw [upd_other _ _ hk.2, upd_other _ _ hk.1]
    · rintro k (rfl | rfl)
      · rw [e1, e1]; rfl
      · rw [upd_same, upd_same]; rfl
    · rintro k o c (rfl | rfl) h1 h2
      · rw [e1] at h1 h2; cases h1; cases h2; exact v1
      · rw [upd_same] at h1 h2; cases h1; cases h2; exact v2
    · rintro k l o t (rfl | rfl) (rfl | rfl) h1 h2 h3
      · exact absurd rfl h3
      · rw [e1] at h1; rw [upd_same] at h2; cases h1; cases h2; exact hap
      · rw [upd_same] at h1; rw [e1] at h2; cases h1; cases h2; exact fun b x y => hap b y x
      · exact absurd rfl h3
  cases op with
  | un i u =>
    obtain ⟨a, ha, hpu⟩ := hp
    obtain ⟨o, ho, hv⟩ := R.obj ha
    obtain ⟨h', o', e, v, fr⟩ := L.un u R.fresh hv hpu
    refine ⟨(h', upd w.2 i (some o')), ?_, ?_⟩
    · simp only [step, ho, spec, ha, e]; cases (S.unS u a).2 <;> rfl
    · simp only [spec, ha]; exact single ho fr v
  | bin i j b =>
    obtain ⟨a, a', ha, ha', hpb⟩ := hp
    obtain ⟨o, ho, hv⟩ := R.obj ha
    obtain ⟨t, ht, hv'⟩ := R.obj ha'
    by_cases hij : i = j
    · subst hij
      rw [if_pos rfl] at hpb
      obtain ⟨h', o', e, v, fr⟩ := L.self b R.fresh hv hpb
      refine ⟨(h', upd w.2 i (some o')), ?_, ?_⟩
      · simp only [step, ho, spec, ha, e, if_true]; cases (S.selfS b a).2 <;> rfl
      · simp only [spec, ha, if_true]; exact single ho fr v
    · rw [if_neg hij] at hpb
      obtain ⟨h', o', t', e, v, v', hap, fr⟩ := L.bin b R.fresh hv hv' (R.apart i j o t ho ht hij) hpb
      refine ⟨(h', upd (upd w.2 i (some o')) j (some t')), ?_, ?_⟩
      · simp only [step, ho, ht, spec, ha, ha', e, if_neg hij]; cases (S.binS b a a').2 <;> rfl
      · simp only [spec, ha, ha', if_neg hij]
        refine double hij (fun c => ?_) fr v v' hap
        constructor
        · rintro (h | h)
          · exact ⟨i, o, .inl rfl, ho, h⟩
          · exact ⟨j, t, .inr rfl, ht, h⟩
        · rintro ⟨k, x, rfl | rfl, h1, h2⟩
          · rw [ho] at h1; cases h1; exact .inl h2
          · rw [ht] at h1; cases h1; exact .inr h2
  | make i c =>
    obtain ⟨hn, hpc⟩ := hp
    have hw := R.absent hn
    obtain ⟨h', o, e, f1, f2⟩ := L.ctor c R.fresh hpc
    simp only [step, hw, spec, e]
    cases hb : (S.ctorS c).2
    · obtain ⟨v, fr⟩ := f2 hb
      refine ⟨(h', upd w.2 i (some o)), rfl, ?_⟩
      refine one (fr.congr (fun b => ?_) (fun b => ?_)) rfl ?_
      · simp [hw]
      · simp
      · intro x y h1 h2; cases h1; cases h2; exact v
    · refine ⟨(h', w.2), rfl, ?_⟩
      have := one (i := i) (h' := h') (p := none) (q := none) ((f1 hb).congr (fun b => by simp [hw]) (fun b => by simp))
        rfl (by intro x y h1; cases h1)
      have e1 : upd w.2 i none = w.2 := by funext k; by_cases h : k = i <;> simp [upd, h, hw]
      have e2 : upd s i none = s := by funext k; by_cases h : k = i <;> simp [upd, h, hn]
      rwa [e1, e2] at this
  | makeFrom i j x =>
    obtain ⟨hn, a, ha, hpx⟩ := hp
    have hw := R.absent hn
    obtain ⟨t, ht, hv⟩ := R.obj ha
    have hij : i ≠ j := by rintro rfl; rw [hn] at ha; cases ha
    obtain ⟨h', o, t', e, v, f1, f2⟩ := L.ctorFrom x R.fresh hv hpx
    simp only [step, hw, ht, spec, ha, e]
    cases hb : (S.ctorFromS x a).2
    · obtain ⟨v', hap, fr⟩ := f2 hb
      refine ⟨(h', upd (upd w.2 i (some o)) j (some t')), rfl, ?_⟩
      refine double hij (fun c => ?_) fr v' v hap
      constructor
      · intro h; exact ⟨j, t, .inr rfl, ht, h⟩
      · rintro ⟨k, x, rfl | rfl, h1, h2⟩
        · rw [hw] at h1; cases h1
        · rw [ht] at h1; cases h1; exact h2
    · exact ⟨(h', upd w.2 j (some t')), rfl, single ht (f1 hb) v⟩
  | drop i =>
    obtain ⟨a, ha⟩ := hp
    obtain ⟨o, ho, hv⟩ := R.obj ha
    obtain ⟨h', e, fr⟩ := L.dtor hv
    refine ⟨(h', upd w.2 i none), ?_, ?_⟩
    · simp only [step, ho, spec, e, Out.of_false]
    · exact one (fr.congr (fun b => by simp [ho]) (fun b => by simp)) rfl (by intro x y h1; cases h1)

/-- No objects, nothing allocated. -/
theorem rel_start : S.Rel inv (⟨fun _ => none, 0⟩, fun _ => none) (fun _ => none) :=
  ⟨fun _ _ => rfl, fun _ => rfl, (fun _ _ _ h => by cases h), (fun _ _ _ _ h => by cases h), fun _ h => absurd rfl h⟩

/-- Every history of a program. -/
theorem world_refines (L : S.Laws inv) (ops : List (WOp U B C X))
    (hp : PreHist S.spec S.pre (fun _ => none) ops) :
    ∃ w, runHist S.step (⟨fun _ => none, 0⟩, fun _ => none) ops = some (w, (specHist S.spec (fun _ => none) ops).2) ∧
      S.Rel inv w (specHist S.spec (fun _ => none) ops).1 :=
  runHist_refines (fun w s op => step_ok L w s op) ops _ _ rel_start hp

/-- When all objects are gone, nothing is allocated. -/
theorem Rel.empty {w : Heap V × (Nat → Option O)} {s : Nat → Option A} (R : S.Rel inv w s)
    (h : ∀ i, s i = none) (b : Nat) : w.1.blk b = none := by
  apply Classical.byContradiction
  intro hb
  obtain ⟨i, o, h1, _⟩ := R.noLeak b hb
  rw [R.absent (h i)] at h1; cases h1

/-! Deciding the preconditions of a concrete history, for the examples. -/

instance decEx {A : Type} (x : Option A) (P : A → Prop) [∀ a, Decidable (P a)] : Decidable (∃ a, x = some a ∧ P a) :=
  match x with
  | none => isFalse (by rintro ⟨a, h, _⟩; cases h)
  | some a => decidable_of_iff (P a) ⟨fun h => ⟨a, rfl, h⟩, by rintro ⟨b, h, k⟩; cases h; exact k⟩

instance decEx' {A : Type} (x : Option A) : Decidable (∃ a, x = some a) :=
  match x with
  | none => isFalse (by rintro ⟨a, h⟩; cases h)
  | some a => isTrue ⟨a, rfl⟩

instance decNone {A : Type} (x : Option A) : Decidable (x = none) :=
  match x with
  | none => isTrue rfl
  | some _ => isFalse (by simp)

instance decEx2 {A : Type} (x y : Option A) (P : A → A → Prop) [∀ a b, Decidable (P a b)] :
    Decidable (∃ a b, x = some a ∧ y = some b ∧ P a b) :=
  match x, y with
  | none, _ => isFalse (by rintro ⟨a, b, h, _⟩; cases h)
  | some _, none => isFalse (by rintro ⟨a, b, _, h, _⟩; cases h)
  | some a, some b => decidable_of_iff (P a b)
    ⟨fun h => ⟨a, b, rfl, rfl, h⟩, by rintro ⟨a', b', h, h', k⟩; cases h; cases h'; exact k⟩

instance decPre (S : Sys V O A U B C X) [∀ u a, Decidable (S.unP u a)] [∀ b a a', Decidable (S.binP b a a')]
    [∀ b a, Decidable (S.selfP b a)] [∀ c, Decidable (S.ctorP c)] [∀ x a, Decidable (S.ctorFromP x a)]
    (w : Nat → Option A) (op : WOp U B C X) : Decidable (S.pre w op) := by
  cases op <;> unfold pre <;> infer_instance

end Sys

instance decPreHist {A O : Type} (spec : A → O → A × Bool) (pre : A → O → Prop) [∀ a o, Decidable (pre a o)] :
    ∀ (os : List O) (a : A), Decidable (PreHist spec pre a os)
  | [], _ => isTrue trivial
  | o :: os, a => by
    have := decPreHist spec pre os (spec a o).1
    unfold PreHist; infer_instance

end Verif.Containers
