import Mathlib.Tactic.IntervalCases
import Verif.Algo.UniqueThrows

/-!
# What is left when the function object throws (C80)
-/

namespace Verif.Algo

open Prog Mem

variable {α S Q R τ : Type}

/-! ## Whatever the function object does, nothing is leaked and nothing else is touched -/

/-- The objects are where they were, and only those in `S` can have changed. -/
def Within (S : Nat → Prop) (m s : Mem (Obj α)) : Prop := SameLive m s ∧ SameOff m s S

theorem Within.refl (S : Nat → Prop) (m : Mem (Obj α)) : Within S m m := ⟨fun _ => Iff.rfl, fun _ _ => rfl⟩

theorem Within.trans {S : Nat → Prop} {m s t : Mem (Obj α)} (h1 : Within S m s) (h2 : Within S s t) : Within S m t := ⟨h1.1.trans h2.1, h1.2.trans h2.2⟩

theorem Within.mono {S T : Nat → Prop} {m s : Mem (Obj α)} (h : Within S m s) (hST : ∀ a, S a → T a) : Within T m s := ⟨h.1, h.2.mono hST⟩

theorem assignFrom_within {mk : MoveKind} {m m' : Mem (Obj α)} {dst src : Nat} (h : assignFrom mk m dst src = some m') :
    Within (fun a => a = dst ∨ a = src) m m' := by
  rw [assignFrom] at h
  split at h
  · rename_i v o hs hd
    simp only [Option.some.injEq] at h
    subst h
    refine ⟨fun a => ?_, fun a ha => ?_⟩
    · by_cases had : a = dst <;> by_cases has : a = src
      · subst had; subst has; cases mk <;> simp [upd_same, hd]
      · subst had; cases mk <;> simp [upd_same, upd_other _ _ has, hd]
      · subst has; cases mk <;> simp [upd_same, upd_other _ _ had, hs]
      · cases mk <;> simp [upd_other _ _ had, upd_other _ _ has]
    · cases mk <;> simp [upd_other _ _ (fun h => ha (.inl h)), upd_other _ _ (fun h => ha (.inr h))]
  · cases h

/-- A copy leaves the source as it is. -/
theorem assignFrom_keep_within {m m' : Mem (Obj α)} {dst src : Nat} (h : assignFrom .keep m dst src = some m') : Within (fun a => a = dst) m m' := by
  refine ⟨(assignFrom_within h).1, ?_⟩
  rw [assignFrom] at h
  split at h
  · simp only [Option.some.injEq] at h
    subst h
    exact fun a ha => upd_other _ _ ha
  · cases h

/-- A comparison that finds the memory as described by `P` does nothing else. -/
def Calm (P : Mem (Obj α) → Prop) (c : Cmp α Q) : Prop := ∀ m a b n, P m → Fine false P (fun _ _ => True) n (c m a b)

theorem Calm.call (P : Mem (Obj α) → Prop) (q : α → α → Q) : Calm P fun m a b => Prog.call m (q a b) := fun _ _ _ _ h => Fine.call h fun _ => trivial

theorem Calm.negate {P : Mem (Obj α) → Prop} {c : Cmp α Q} (h : Calm P c) : Calm P c.negate := fun m a b n hm =>
  Fine.seq (Fine.mono (fun _ a => a) (fun _ _ _ => Fine.pure trivial) (h m a b n hm))

section Frames

variable {P : Mem (Obj α) → Prop}

theorem fine_get {β : Type} {P : S → Prop} {x : Option β} {g : β → Prog S Q R} {post : Nat → R → Prop} {n : Nat} (H : ∀ v, x = some v → Fine false P post n (g v)) :
    Fine false P post n (Prog.lift x >>= g : Prog S Q R) := Fine.seq (Fine.lift (fun h => by cases h) H)

theorem fine_cmp {P : S → Prop} {p : Prog S Q Bool} {g : Bool → Prog S Q R} {post : Nat → R → Prop} {n : Nat} (hp : ∀ n, Fine false P (fun _ _ => True) n p)
    (H : ∀ k b, Fine false P post k (g b)) : Fine false P post n (p >>= g : Prog S Q R) :=
  Fine.seq (Fine.mono (fun _ a => a) (fun k b _ => H k b) (hp n))

theorem findIfA_within {P : S → Prop} {m : Mem α} {p : α → Prog S Q Bool} (hp : ∀ v n, Fine false P (fun _ _ => True) n (p v)) {first last : Nat} (n : Nat) :
    Fine false P (fun _ r => first ≤ r ∧ r ≤ last) n (findIfA m p first last) := by
  have loop : ∀ (k first n : Nat), Fine false P (fun _ r => first ≤ r ∧ r ≤ first + k) n (findIfLoopA m p k first) := by
    intro k
    induction k with
    | zero => exact fun first n => Fine.pure ⟨Nat.le_refl _, Nat.le_refl _⟩
    | succ k ih =>
      intro first n
      refine fine_get fun v _ => fine_cmp (hp v) fun n b => ?_
      cases b with
      | true => exact Fine.pure ⟨Nat.le_refl _, by omega⟩
      | false => exact Fine.mono (fun _ a => a) (fun _ r h => by omega) (ih (first + 1) n)
  rw [findIfA]
  split
  · exact Fine.mono (fun _ a => a) (fun _ r h => by omega) (loop _ _ _)
  · exact Fine.lift (fun h => by cases h) (fun _ h => by cases h)

theorem findFirstEqualA_within {P : S → Prop} {m : Mem α} {eq : α → α → Prog S Q Bool} (hp : ∀ a b n, Fine false P (fun _ _ => True) n (eq a b))
    {first last : Nat} (hle : first ≤ last) (n : Nat) : Fine false P (fun _ r => first ≤ r ∧ r ≤ last) n (findFirstEqualA eq m first last) := by
  have loop : ∀ (k p first n : Nat), Fine false P (fun _ r => first ≤ r ∧ r ≤ first + k) n (findFirstEqualLoopA eq m k p first) := by
    intro k
    induction k with
    | zero => exact fun p first n => Fine.pure ⟨Nat.le_refl _, Nat.le_refl _⟩
    | succ k ih =>
      intro p first n
      refine fine_get fun x _ => fine_get fun y _ => fine_cmp (hp x y) fun n b => ?_
      cases b with
      | true => exact Fine.pure ⟨Nat.le_refl _, by omega⟩
      | false => exact Fine.mono (fun _ a => a) (fun _ r h => by omega) (ih first (first + 1) n)
  rw [findFirstEqualA]
  split
  · exact Fine.pure ⟨Nat.le_refl _, by omega⟩
  · exact Fine.mono (fun _ a => a) (fun _ r h => by omega) (loop _ _ _ _)

theorem isSortedA_within {P : S → Prop} {m : Mem α} {lt : α → α → Prog S Q Bool} (hp : ∀ a b n, Fine false P (fun _ _ => True) n (lt a b))
    (first k n : Nat) : Fine false P (fun _ _ => True) n (isSortedA m lt first k) := by
  have loop : ∀ (k a b n : Nat), Fine false P (fun _ _ => True) n (isSortedLoopA m lt k a b) := by
    intro k
    induction k with
    | zero => exact fun a b n => Fine.pure trivial
    | succ k ih =>
      intro a b n
      refine fine_get fun x _ => fine_get fun y _ => fine_cmp (hp x y) fun n b => ?_
      cases b with
      | true => exact Fine.pure trivial
      | false => exact ih _ _ _
  rw [isSortedA]
  split
  · exact Fine.pure trivial
  · exact loop _ _ _ _

/-- `P` is kept by assignments within `S`. -/
def Stays (P : Mem (Obj α) → Prop) (mk : MoveKind) (D S : Nat → Prop) : Prop := ∀ m m' dst src, P m → D dst → S src → assignFrom mk m dst src = some m' → P m'

theorem uniqueCommonA_within {mk : MoveKind} {c : Cmp α Q} (hc : Calm P c) {D S : Nat → Prop} (hP : Stays P mk D S) : ∀ (k : Nat) (m : Mem (Obj α)) (it out n : Nat), P m →
    (∀ a, out < a → a < out + 1 + k → D a) → (∀ a, it ≤ a → a < it + k → S a) →
    Fine false P (fun _ r => P r.1) n (uniqueCommonA mk c k m it out)
  | 0, m, it, out, n, hm, _, _ => Fine.pure hm
  | k + 1, m, it, out, n, hm, h1, h2 => by
    refine fine_get fun o _ => fine_get fun x _ => fine_cmp (fun n => hc m o x n hm) fun n b => ?_
    cases b with
    | true => exact uniqueCommonA_within hc hP k m _ _ _ hm (fun a ha hb => h1 a ha (by omega)) (fun a ha hb => h2 a (by omega) (by omega))
    | false =>
      exact fine_get fun m' hm' => uniqueCommonA_within hc hP k m' _ _ _ (hP m m' _ _ hm (h1 _ (by omega) (by omega)) (h2 _ (by omega) (by omega)) hm')
        (fun a ha hb => h1 a (by omega) (by omega)) (fun a ha hb => h2 a (by omega) (by omega))

theorem uniqueCopyA_within {mk : MoveKind} {c : Cmp α Q} (hc : Calm P c) {D S : Nat → Prop} (hP : Stays P mk D S) {m : Mem (Obj α)} {first last out : Nat}
    (hle : first ≤ last) (n : Nat) (hm : P m) (h1 : ∀ a, out ≤ a → a < out + (last - first) → D a) (h2 : ∀ a, first ≤ a → a < last → S a) :
    Fine false P (fun _ r => P r.1) n (uniqueCopyA mk c m first last out) := by
  rw [uniqueCopyA]
  split
  · exact Fine.pure hm
  · exact fine_get fun m' hm' => uniqueCommonA_within hc hP _ m' _ _ _ (hP m m' _ _ hm (h1 _ (by omega) (by omega)) (h2 _ (by omega) (by omega)) hm')
      (fun a ha hb => h1 a (by omega) (by omega)) (fun a ha hb => h2 a (by omega) (by omega))

theorem uniqueA_within {mk : MoveKind} {c : Cmp α Q} (hc : Calm P c) {S : Nat → Prop} (hP : Stays P mk S S) {m : Mem (Obj α)} {first last : Nat}
    (hle : first ≤ last) (n : Nat) (hm : P m) (h1 : ∀ a, first ≤ a → a < last → S a) :
    Fine false P (fun _ r => P r.1) n (uniqueA mk c m first last) := by
  refine Fine.seq (Fine.mono (fun _ a => a) (fun k e he => ?_) (findFirstEqualA_within (fun a b n => hc m a b n hm) hle n))
  split
  · exact Fine.pure hm
  · refine fine_get fun v _ => Fine.seq (Fine.mono (fun _ a => a) (fun k o ho => ?_) (findIfA_within (fun x n => (Calm.negate hc) m v x n hm) _))
    split
    · exact Fine.pure hm
    · exact fine_get fun m' hm' => uniqueCommonA_within hc hP _ m' _ _ _ (hP m m' _ _ hm (h1 _ (by omega) (by omega)) (h1 _ (by omega) (by omega)) hm')
        (fun a ha hb => h1 a (by omega) (by omega)) (fun a ha hb => h1 a (by omega) (by omega))

theorem uniqueMergeCopyA_within {mk : MoveKind} {c : Cmp α Q} (hc : Calm P c) {D S : Nat → Prop} (hP : Stays P mk D S) : ∀ (k : Nat) (m : Mem (Obj α))
    (first1 last1 first2 last2 out n : Nat), P m → first1 ≤ last1 → first2 ≤ last2 →
    (∀ a, out ≤ a → a < out + (last1 - first1) + (last2 - first2) → D a) → (∀ a, first1 ≤ a → a < last1 → S a) → (∀ a, first2 ≤ a → a < last2 → S a) →
    Fine false P (fun _ r => P r.1) n (uniqueMergeCopyA mk c k m first1 last1 first2 last2 out)
  | 0, m, _, _, _, _, _, n, _, _, _, _, _, _ => Fine.lift (fun h => by cases h) (fun _ h => by cases h)
  | k + 1, m, first1, last1, first2, last2, out, n, hm, hl1, hl2, hd, hs1, hs2 => by
    rw [uniqueMergeCopyA]
    split
    · rename_i hne
      refine fine_get fun a _ => fine_get fun b _ => fine_cmp (fun n => hc m b a n hm) fun n less => fine_get fun m' hm' => fine_get fun o _ => ?_
      have hm1 : P m' := hP m m' _ _ hm (hd _ (by omega) (by omega)) (by
        cases less with
        | true => exact hs2 _ (by simp) (by simp; omega)
        | false => exact hs1 _ (by simp) (by simp; omega)) hm'
      refine Fine.seq (Fine.mono (fun _ a => a) (fun _ i hi => ?_) (findIfA_within (fun x n => hc m' o x n hm1) _))
      refine Fine.seq (Fine.mono (fun _ a => a) (fun _ j hj => ?_) (findIfA_within (fun x n => hc m' o x n hm1) _))
      refine uniqueMergeCopyA_within hc hP k m' i last1 j last2 (out + 1) _ hm1 hi.2 hj.2 (fun x hx hy => hd x (by omega) ?_)
        (fun x hx hy => hs1 x ?_ hy) (fun x hx hy => hs2 x ?_ hy)
      · cases less <;> simp at hi hj <;> omega
      · cases less <;> simp at hi <;> omega
      · cases less <;> simp at hj <;> omega
    · split
      · exact uniqueCopyA_within hc.negate hP hl1 _ hm (fun a ha hb => hd a ha (by omega)) hs1
      · exact uniqueCopyA_within hc.negate hP hl2 _ hm (fun a ha hb => hd a ha (by omega)) hs2

theorem firstToMoveA_within {c : Cmp α Q} (hc : Calm P c) {m : Mem (Obj α)} (hm : P m) {middle : Nat} : ∀ (k before n : Nat),
    Fine false P (fun _ r => before ≤ r ∧ r ≤ before + k) n (firstToMoveA c m middle k before)
  | 0, before, n => Fine.pure ⟨Nat.le_refl _, Nat.le_refl _⟩
  | k + 1, before, n => by
    refine fine_get fun x _ => fine_get fun y _ => fine_cmp (fun n => hc m x y n hm) fun n b => ?_
    cases b with
    | true => exact Fine.pure ⟨Nat.le_refl _, by omega⟩
    | false => exact Fine.mono (fun _ a => a) (fun _ r h => by omega) (firstToMoveA_within hc hm k (before + 1) n)

end Frames

/-- With something constructed in the raw memory at `tmp` that is destroyed again. -/
theorem destroyTemp_within {mk : MoveKind} : ∀ {n : Nat} {m m' : Mem (Obj α)} {src dst : Nat}, moveConstruct mk m src dst n = some m' →
    Within (fun a => src ≤ a ∧ a < src + n) m (destroyTemp m' dst n) ∧ ∀ a, dst ≤ a → a < dst + n → m a = none
  | 0, m, m', src, dst, h => by
    simp only [moveConstruct, Option.some.injEq] at h
    subst h
    refine ⟨⟨fun a => ?_, fun a _ => ?_⟩, fun a h1 h2 => by omega⟩
    · rw [destroyTemp, if_neg (by omega)]
    · rw [destroyTemp, if_neg (by omega)]
  | n + 1, m, m', src, dst, h => by
    rw [moveConstruct] at h
    split at h
    · rename_i v hs hd
      obtain ⟨⟨l, s⟩, raw⟩ := destroyTemp_within h
      have hne : src ≠ dst := by intro he; rw [he, hd] at hs; cases hs
      have hraw : ∀ a, dst ≤ a → a < dst + (n + 1) → m a = none := by
        intro a h1 h2
        by_cases ha : a = dst
        · rw [ha]; exact hd
        · have := raw a (by omega) (by omega)
          have has : a ≠ src := by
            intro he
            subst he
            cases mk
            · simp only [upd_other _ _ ha] at this; rw [this] at hs; cases hs
            · simp only [upd_same] at this; cases this
            · simp only [upd_same] at this; cases this
          cases mk <;> simpa only [upd_other _ _ ha, upd_other _ _ has] using this
      refine ⟨⟨fun a => ?_, fun a ha => ?_⟩, hraw⟩
      · rw [destroyTemp]
        split
        · rename_i hr; simp [hraw a hr.1 hr.2]
        · rename_i hr
          have h1 := l a
          rw [destroyTemp, if_neg (by omega)] at h1
          rw [h1]
          by_cases has : a = src
          · subst has; cases mk <;> simp [upd_same, upd_other _ _ hne, hs]
          · cases mk <;> simp [upd_other _ _ (show a ≠ dst by omega), upd_other _ _ has]
      · rw [destroyTemp]
        split
        · rename_i hr; rw [hraw a hr.1 hr.2]
        · rename_i hr
          have h1 := s a (by omega)
          rw [destroyTemp, if_neg (by omega)] at h1
          rw [h1]
          cases mk <;> simp [upd_other _ _ (show a ≠ dst by omega), upd_other _ _ (show a ≠ src by omega)]
    · cases h

theorem Stays.within {m0 : Mem (Obj α)} {T D S : Nat → Prop} (mk : MoveKind) (hD : ∀ a, D a → T a) (hS : ∀ a, S a → T a) :
    Stays (Within T m0) mk D S := fun _ _ _ _ hm hd hs h =>
  hm.trans ((assignFrom_within h).mono fun _ ha => by rcases ha with rfl | rfl; exacts [hD _ hd, hS _ hs])

/-- Objects that changed only in the range or in `temp`, whose objects were made after `m0`. -/
theorem Within.destroyTemp {T : Nat → Prop} {m0 m1 s : Mem (Obj α)} {tmp n : Nat} (h0 : Within T m0 (destroyTemp m1 tmp n))
    (hs : Within (fun a => T a ∨ (tmp ≤ a ∧ a < tmp + n)) m1 s) : Within T m0 (destroyTemp s tmp n) := by
  refine ⟨fun a => ?_, fun a ha => ?_⟩
  · have := h0.1 a
    simp only [Algo.destroyTemp] at this ⊢
    split
    · rename_i hr; rwa [if_pos hr] at this
    · rename_i hr; rw [if_neg hr] at this; exact (hs.1 a).trans this
  · have := h0.2 a ha
    simp only [Algo.destroyTemp] at this ⊢
    split
    · rename_i hr; rwa [if_pos hr] at this
    · rename_i hr; rw [if_neg hr] at this; rw [hs.2 a (by tauto), this]

theorem mergeThroughTempA_within {mk : MoveKind} {q : α → α → Q} {alloc : Q} {tmp : Nat} {m : Mem (Obj α)} {target middle last : Nat} (h1 : target ≤ middle)
    (h2 : middle ≤ last) {m0 : Mem (Obj α)} {T : Nat → Prop} (hm : Within T m0 m) (hT : ∀ a, target ≤ a → a < last → T a)
    {find : Mem (Obj α) → Prog (Mem (Obj α)) Q Nat}
    (hfind : ∀ (P : Mem (Obj α) → Prop) m n, P m → Fine false P (fun _ r => middle ≤ r ∧ r ≤ last) n (find m)) (n : Nat) :
    Fine false (Within T m0) (fun _ r => Within T m0 r.1) n (mergeThroughTempA mk (fun m a b => call m (q a b)) alloc tmp m target middle last find) := by
  rw [mergeThroughTempA]
  refine Fine.seq (Fine.call hm fun _ => fine_get fun m1 hm1 => ?_)
  obtain ⟨hw, -⟩ := destroyTemp_within hm1
  have hw' : Within T m0 (destroyTemp m1 tmp (middle - target)) := hm.trans (hw.mono fun a ha => hT a (by omega) (by omega))
  refine Fine.seq ?_
  refine Fine.unwinding (P := Within (fun a => T a ∨ (tmp ≤ a ∧ a < tmp + (middle - target))) m1) (fun s hs => hw'.destroyTemp hs) ?_
  refine Fine.seq (Fine.mono (fun _ a => a) (fun _ nm hnm => ?_) (hfind _ m1 _ (Within.refl _ _)))
  refine Fine.mono (fun _ a => a) (fun _ r hr => ?_) (uniqueMergeCopyA_within (Calm.call _ q)
    (Stays.within (D := T) (S := fun a => T a ∨ (tmp ≤ a ∧ a < tmp + (middle - target))) mk (fun a ha => .inl ha) (fun a ha => ha)) _ m1 tmp (tmp + (middle - target)) nm last
    target _ (Within.refl _ _) (by omega) hnm.2 (fun a ha hb => hT a ha (by omega)) (fun a ha hb => .inr ⟨ha, hb⟩) (fun a ha hb => .inl (hT a (by omega) hb)))
  exact Fine.pure (hw'.destroyTemp hr)

theorem uniqueInplaceMergeA_within {mk : MoveKind} {q : α → α → Q} {alloc : Q} {tmp : Nat} {m : Mem (Obj α)} {first middle last : Nat} (h1 : first ≤ middle)
    (h2 : middle ≤ last) (n : Nat) :
    Fine false (Within (fun a => first ≤ a ∧ a < last) m) (fun _ r => Within (fun a => first ≤ a ∧ a < last) m r.1) n
      (uniqueInplaceMergeA mk (fun m a b => call m (q a b)) alloc tmp m first middle last) := by
  have hc := Calm.call (α := α) (Within (fun a => first ≤ a ∧ a < last) m) q
  have hm : Within (fun a => first ≤ a ∧ a < last) m m := Within.refl _ m
  have hst := Stays.within (m0 := m) (T := fun a => first ≤ a ∧ a < last) (D := fun a => first ≤ a ∧ a < last) (S := fun a => first ≤ a ∧ a < last) mk
    (fun _ a => a) (fun _ a => a)
  have hlte : ∀ a b n, Fine false (Within (fun a => first ≤ a ∧ a < last) m) (fun _ _ => True) n (lessToEqual (fun a b => Prog.call m (q a b)) a b) := by
    intro a b n
    refine fine_cmp (fun n => hc m a b n hm) fun n x => ?_
    cases x with
    | true => exact Fine.pure trivial
    | false => exact fine_cmp (fun n => hc m b a n hm) fun n x => Fine.pure trivial
  have hasserts : Fine false (Within (fun a => first ≤ a ∧ a < last) m) (fun _ _ => True) n (inplaceAssertsA (fun m a b => call m (q a b)) m first middle last) := by
    rw [inplaceAssertsA]
    refine Fine.seq (Fine.mono (fun _ a => a) (fun _ b1 _ => ?_) (isSortedA_within (fun a b n => hc m a b n hm) _ _ _))
    refine Fine.seq (Fine.mono (fun _ a => a) (fun _ b2 _ => ?_) (isSortedA_within (fun a b n => hc m a b n hm) _ _ _))
    refine Fine.seq (Fine.mono (fun _ a => a) (fun _ e _ => ?_) (findFirstEqualA_within hlte h1 _))
    split
    · exact Fine.pure trivial
    · exact Fine.lift (fun h => by cases h) (fun _ h => by cases h)
  rw [uniqueInplaceMergeA]
  refine Fine.seq (Fine.mono (fun _ a => a) (fun _ _ _ => ?_) hasserts)
  split
  · exact uniqueA_within hc.negate hst (by omega) _ hm fun a h1 h2 => ⟨h1, h2⟩
  · refine fine_get fun a _ => fine_get fun mid _ => fine_cmp (fun n => hc m mid a n hm) fun n b => ?_
    cases b with
    | true =>
      exact mergeThroughTempA_within h1 h2 hm (fun a h1 h2 => ⟨h1, h2⟩) (fun P m n hm => Fine.pure ⟨Nat.le_refl _, h2⟩) _
    | false =>
      refine Fine.seq (Fine.mono (fun _ a => a) (fun _ before hb => ?_) (firstToMoveA_within hc hm _ _ _))
      split
      · exact uniqueA_within hc.negate hst (by omega) _ hm fun a h1 h2 => ⟨by omega, h2⟩
      · refine fine_get fun v _ => ?_
        exact mergeThroughTempA_within (by omega) h2 hm (fun a h1 h2 => ⟨by omega, h2⟩)
          (fun P m n hm => findIfA_within (fun x n => Calm.call P q m v x n hm) _) _

/-! ## The theorems for every function object -/

/-- The run ended with an exception or returned, in either case without leaking or touching anything else. (If it does something undefined,
nothing is said about what comes after.) -/
def Contained (S : Nat → Prop) (m : Mem (Obj α)) (e : Ask.Ending (Mem (Obj α)) (Option (Mem (Obj α) × Nat))) : Prop :=
  match e with
  | .threw s => Within S m s
  | .returned (some r) => Within S m r.1
  | .returned none => True

theorem contained_of_fine {S : Nat → Prop} {m : Mem (Obj α)} {a : Prog (Mem (Obj α)) Q (Mem (Obj α) × Nat)} (h : Fine false (Within S m) (fun _ r => Within S m r.1) 0 a)
    (f : τ → Q → Option (Bool × τ)) (t : τ) : Contained S m (Ask.exec f t a).1 := by
  have := Fine.exec (f := f) (t := t) h
  simp only [Outcome, Ask.Ends] at this
  generalize Ask.exec f t a = e at this
  obtain ⟨e, c⟩ := e
  cases e with
  | threw s => exact this
  | returned r => cases r with
    | none => trivial
    | some r => exact this

/-- `unique`: whatever the comparison does, exactly the objects that existed still do, and only those of the range can have changed. -/
theorem C80_unique_contained (mk : MoveKind) (m : Mem (Obj α)) {first last : Nat} (hle : first ≤ last) (f : τ → α × α → Option (Bool × τ)) (t : τ) :
    Contained (fun a => first ≤ a ∧ a < last) m (Ask.exec f t (uniqueA mk (fun m a b => call m (a, b)) m first last)).1 :=
  contained_of_fine (uniqueA_within (Calm.call _ Prod.mk) (Stays.within mk (fun _ a => a) (fun _ a => a)) hle _ (Within.refl _ m) fun _ h1 h2 => ⟨h1, h2⟩) f t

/-- `unique_copy`, which copies: only objects that are written to can have changed. -/
theorem C80_unique_copy_contained (m : Mem (Obj α)) {first last out : Nat} (hle : first ≤ last) (f : τ → α × α → Option (Bool × τ)) (t : τ) :
    Contained (fun a => out ≤ a ∧ a < out + (last - first)) m (Ask.exec f t (uniqueCopyA .keep (fun m a b => call m (a, b)) m first last out)).1 := by
  refine contained_of_fine (uniqueCopyA_within (D := fun a => out ≤ a ∧ a < out + (last - first)) (S := fun _ => True) (Calm.call _ Prod.mk) ?_ hle _ (Within.refl _ m)
    (fun a h1 h2 => ⟨h1, h2⟩) (fun _ _ _ => trivial)) f t
  intro m1 m2 dst src hm hd _ h
  exact hm.trans ((assignFrom_keep_within h).mono fun a ha => by subst ha; exact hd)

/-- `unique_merge_copy`. -/
theorem C80_unique_merge_copy_contained (mk : MoveKind) (m : Mem (Obj α)) {first1 last1 first2 last2 out : Nat} (h1 : first1 ≤ last1) (h2 : first2 ≤ last2) (k : Nat)
    (f : τ → α × α → Option (Bool × τ)) (t : τ) :
    Contained (fun a => (first1 ≤ a ∧ a < last1) ∨ (first2 ≤ a ∧ a < last2) ∨ (out ≤ a ∧ a < out + (last1 - first1) + (last2 - first2))) m
      (Ask.exec f t (uniqueMergeCopyA mk (fun m a b => call m (a, b)) k m first1 last1 first2 last2 out)).1 :=
  contained_of_fine (uniqueMergeCopyA_within (D := fun a => out ≤ a ∧ a < out + (last1 - first1) + (last2 - first2))
    (S := fun a => (first1 ≤ a ∧ a < last1) ∨ (first2 ≤ a ∧ a < last2)) (Calm.call _ Prod.mk)
    (Stays.within mk (fun _ a => .inr (.inr a)) (fun _ a => by tauto)) k m _ _ _ _ _ _ (Within.refl _ m) h1 h2 (fun _ a b => ⟨a, b⟩)
    (fun _ a b => .inl ⟨a, b⟩) (fun _ a b => .inr ⟨a, b⟩)) f t

/-- What `unique_inplace_merge` calls: the comparison, and the allocation for its temporary. -/
inductive MergeCall (α : Type)
  | less (a b : α)
  | alloc

/-- `unique_inplace_merge`: whatever the comparison does and whether or not memory can be allocated, exactly the objects that existed still do, the temporary is
gone, and only objects of the range can have changed. -/
theorem C80_unique_inplace_merge_contained (mk : MoveKind) (tmp : Nat) (m : Mem (Obj α)) {first middle last : Nat} (h1 : first ≤ middle) (h2 : middle ≤ last)
    (f : τ → MergeCall α → Option (Bool × τ)) (t : τ) :
    Contained (fun a => first ≤ a ∧ a < last) m
      (Ask.exec f t (uniqueInplaceMergeA mk (fun m a b => call m (MergeCall.less a b)) .alloc tmp m first middle last)).1 :=
  contained_of_fine (uniqueInplaceMergeA_within h1 h2 0) f t

/-! ## Function objects that do not contradict themselves -/

theorem findIfA_snaps {f : Q → Bool} {m : Mem α} {p : α → Prog S Q Bool} {s : S} (hp : ∀ v, ∀ x ∈ (p v).snaps f, x = s) {first last : Nat} :
    ∀ x ∈ (findIfA m p first last).snaps f, x = s := by
  have loop : ∀ (k first : Nat), ∀ x ∈ (findIfLoopA m p k first).snaps f, x = s := by
    intro k
    induction k with
    | zero => exact fun first x h => by simp [findIfLoopA] at h
    | succ k ih =>
      intro first x h
      simp only [findIfLoopA, mem_snaps_bind, snaps_lift, List.not_mem_nil, false_or] at h
      obtain ⟨v, -, h | ⟨b, -, h⟩⟩ := h
      · exact hp v x h
      · cases b with
        | true => simp at h
        | false => exact ih _ x h
  rw [findIfA]
  split
  · exact loop _ _
  · simp

theorem findFirstEqualA_snaps {f : Q → Bool} {m : Mem α} {eq : α → α → Prog S Q Bool} {s : S} (hp : ∀ a b, ∀ x ∈ (eq a b).snaps f, x = s) {first last : Nat} :
    ∀ x ∈ (findFirstEqualA eq m first last).snaps f, x = s := by
  have loop : ∀ (k p first : Nat), ∀ x ∈ (findFirstEqualLoopA eq m k p first).snaps f, x = s := by
    intro k
    induction k with
    | zero => exact fun p first x h => by simp [findFirstEqualLoopA] at h
    | succ k ih =>
      intro p first x h
      simp only [findFirstEqualLoopA, mem_snaps_bind, snaps_lift, List.not_mem_nil, false_or] at h
      obtain ⟨a, -, b, -, h | ⟨b, -, h⟩⟩ := h
      · exact hp _ _ x h
      · cases b with
        | true => simp at h
        | false => exact ih _ _ x h
  rw [findFirstEqualA]
  split
  · simp
  · exact loop _ _ _

theorem findIf_some {m : Mem α} {g : α → Bool} {first last r : Nat} (h : findIf m g first last = some r) :
    first ≤ r ∧ r ≤ last ∧ (∀ i, first ≤ i → i < r → ∃ v, m i = some v ∧ g v = false) ∧ (r < last → ∃ v, m r = some v ∧ g v = true) := by
  have loop : ∀ (k first r : Nat), findIfLoop m g k first = some r → first ≤ r ∧ r ≤ first + k ∧ (∀ i, first ≤ i → i < r → ∃ v, m i = some v ∧ g v = false) ∧
      (r < first + k → ∃ v, m r = some v ∧ g v = true) := by
    intro k
    induction k with
    | zero =>
      intro first r h
      simp only [findIfLoop, Option.some.injEq] at h
      exact ⟨by omega, by omega, fun i h1 h2 => by omega, fun h => by omega⟩
    | succ k ih =>
      intro first r h
      simp only [findIfLoop, Option.bind_eq_bind, Option.bind_eq_some_iff] at h
      obtain ⟨v, hv, h⟩ := h
      split at h
      · rename_i hg
        simp only [Option.some.injEq] at h
        subst h
        exact ⟨by omega, by omega, fun i h1 h2 => by omega, fun _ => ⟨v, hv, hg⟩⟩
      · rename_i hg
        obtain ⟨h1, h2, h3, h4⟩ := ih _ _ h
        refine ⟨by omega, by omega, fun i h5 h6 => ?_, fun h5 => h4 (by omega)⟩
        by_cases hi : i = first
        · subst hi; exact ⟨v, hv, by simpa using hg⟩
        · exact h3 i (by omega) h6
  rw [findIf] at h
  split at h
  · obtain ⟨h1, h2, h3, h4⟩ := loop _ _ _ h
    exact ⟨h1, by omega, h3, fun h5 => h4 (by omega)⟩
  · cases h

theorem findFirstEqual_some {m : Mem α} {eq : α → α → Bool} {first last r : Nat} (hle : first ≤ last) (h : findFirstEqual eq m first last = some r) :
    r ≤ last ∧ (r < last → first < r ∧ ∃ x y, m (r - 1) = some x ∧ m r = some y ∧ eq x y = true) := by
  have loop : ∀ (k p r : Nat), findFirstEqualLoop eq m k p (p + 1) = some r → r ≤ p + 1 + k ∧
      (r < p + 1 + k → p < r ∧ ∃ x y, m (r - 1) = some x ∧ m r = some y ∧ eq x y = true) := by
    intro k
    induction k with
    | zero =>
      intro p r h
      simp only [findFirstEqualLoop, Option.some.injEq] at h
      exact ⟨by omega, fun h => by omega⟩
    | succ k ih =>
      intro p r h
      simp only [findFirstEqualLoop, Option.bind_eq_bind, Option.bind_eq_some_iff] at h
      obtain ⟨x, hx, y, hy, h⟩ := h
      split at h
      · rename_i hg
        simp only [Option.some.injEq] at h
        subst h
        exact ⟨by omega, fun _ => ⟨by omega, x, y, hx, hy, hg⟩⟩
      · obtain ⟨h1, h2⟩ := ih _ _ h
        refine ⟨by omega, fun h5 => ?_⟩
        obtain ⟨h6, h7⟩ := h2 (by omega)
        exact ⟨by omega, h7⟩
  rw [findFirstEqual] at h
  split at h
  · simp only [Option.some.injEq] at h
    exact ⟨by omega, fun h => by omega⟩
  · obtain ⟨h1, h2⟩ := loop _ _ _ h
    exact ⟨by omega, fun h3 => h2 (by omega)⟩

theorem assignFrom_value {mk : MoveKind} {m m' : Mem (Obj α)} {dst src : Nat} {v : α} (h : assignFrom mk m dst src = some m') (hv : vals m src = some v)
    (hne : dst ≠ src) : vals m' dst = some v ∧ SameOff (vals m) (vals m') fun a => a = dst ∨ a = src := by
  have hd : m dst ≠ none := by
    intro hc
    rw [assignFrom, hc] at h
    split at h
    · rename_i hs; cases hs
    · cases h
  obtain ⟨m'', h1, h2, h3, -⟩ := assignFrom_spec (mk := mk) hv hd (by cases mk <;> simp only [MoveKind.slack] <;> omega)
  rw [h] at h1
  simp only [Option.some.injEq] at h1
  subst h1
  exact ⟨h2, vals_same h3⟩

/-- The element or one that is equal to it is at an address from `lo` to before `hi`. -/
def Represented (eq : α → α → Bool) (s : Mem (Obj α)) (lo hi : Nat) (x : α) : Prop :=
  ∃ a y, lo ≤ a ∧ a < hi ∧ vals s a = some y ∧ (y = x ∨ eq y x = true)

theorem Represented.mono {eq : α → α → Bool} {s : Mem (Obj α)} {lo hi hi' : Nat} {x : α} (h : Represented eq s lo hi x) (hh : hi ≤ hi') :
    Represented eq s lo hi' x := by
  obtain ⟨a, y, h1, h2, h3⟩ := h
  exact ⟨a, y, h1, by omega, h3⟩

theorem uniqueCommonA_represented {mk : MoveKind} {eq : α → α → Bool} {lo : Nat} : ∀ (rest : List α) {m : Mem (Obj α)} {it out : Nat} {before : List α},
    lo ≤ out → out + 1 < it → (vals m).Seg it rest → (∀ x ∈ before, Represented eq m lo (out + 1) x) →
    ∀ s ∈ (uniqueCommonA mk (fun m a b => call m (a, b)) rest.length m it out).snaps (uncurry2 eq),
      ∀ x ∈ before ++ rest, Represented eq s lo (it + rest.length) x
  | [], m, it, out, before, _, _, _, _ => by simp [uniqueCommonA]
  | x :: rest, m, it, out, before, hlo, hit, hseg, hb => by
    intro s hs z hz
    obtain ⟨hx0, hx1⟩ := seg_cons.1 hseg
    simp only [List.length_cons, uniqueCommonA, mem_snaps_bind, snaps_lift, List.not_mem_nil, false_or, run_lift, snaps_call, List.mem_singleton, run_call,
      Option.some.injEq] at hs
    obtain ⟨o, ho, x', hx', hs⟩ := hs
    rw [hx0] at hx'
    simp only [Option.some.injEq] at hx'
    subst hx'
    rcases hs with rfl | ⟨b, hb', hs⟩
    · rcases List.mem_append.1 hz with hz | hz
      · exact (hb z hz).mono (by omega)
      · obtain ⟨j, hj, rfl⟩ := List.mem_iff_getElem.1 hz
        exact ⟨it + j, _, by omega, by omega, hseg j hj, .inl rfl⟩
    · have hlen : it + (x :: rest).length = it + 1 + rest.length := by rw [List.length_cons]; omega
      rw [hlen]
      have hz' : z ∈ (before ++ [x]) ++ rest := by simpa using hz
      cases b with
      | true =>
        refine uniqueCommonA_represented rest hlo (by omega) hx1 (fun w hw => ?_) s hs z hz'
        rcases List.mem_append.1 hw with hw | hw
        · exact hb w hw
        · rw [List.mem_singleton] at hw
          subst hw
          exact ⟨out, o, hlo, by omega, ho, .inr hb'⟩
      | false =>
        simp only [Bool.false_eq_true, if_false, mem_snaps_bind, snaps_lift, List.not_mem_nil, false_or, run_lift] at hs
        obtain ⟨m', hm', hs⟩ := hs
        obtain ⟨hv, hsame⟩ := assignFrom_value hm' hx0 (by omega)
        refine uniqueCommonA_represented rest (by omega) (by omega) (hx1.frame hsame fun i hi => by omega) (fun w hw => ?_) s hs z hz'
        rcases List.mem_append.1 hw with hw | hw
        · obtain ⟨a, y, h1, h2, h3, h4⟩ := hb w hw
          exact ⟨a, y, h1, by omega, by rw [hsame a (by omega), h3], h4⟩
        · rw [List.mem_singleton] at hw
          subst hw
          exact ⟨out + 1, w, by omega, by omega, hv, .inl rfl⟩

/-- `unique`: if the comparison throws, every element that was in the range is still there, or one that is equal to it. -/
theorem C80_unique {eq : α → α → Bool} (htrans : ∀ a b c, eq a b = true → eq b c = true → eq a c = true) (mk : MoveKind) {m : Mem (Obj α)} {first : Nat} {xs : List α}
    (hx : (vals m).Seg first xs) {g : τ → α × α → Option (Bool × τ)} (hg : Honest (uncurry2 eq) g) {t : τ} {s : Mem (Obj α)} {c : List ((α × α) × Bool)}
    (he : Ask.exec g t (uniqueA mk (fun m a b => call m (a, b)) m first (first + xs.length)) = (.threw s, c)) :
    ∀ x ∈ xs, Represented eq s first (first + xs.length) x := by
  have hs := Ask.exec_threw hg he
  change s ∈ Prog.snaps _ _ at hs
  have here : ∀ x ∈ xs, Represented eq m first (first + xs.length) x := by
    intro x hx'
    obtain ⟨j, hj, rfl⟩ := List.mem_iff_getElem.1 hx'
    exact ⟨first + j, _, by omega, by omega, hx j hj, .inl rfl⟩
  have hcall : ∀ a b, ∀ x ∈ (call m (a, b) : Prog (Mem (Obj α)) (α × α) Bool).snaps (uncurry2 eq), x = m := by simp
  simp only [uniqueA, mem_snaps_bind] at hs
  rcases hs with hs | ⟨e, he, hs⟩
  · rw [findFirstEqualA_snaps hcall s hs]; exact here
  rw [findFirstEqualA_run (eq := eq) (fun _ _ => rfl)] at he
  obtain ⟨he1, he2⟩ := findFirstEqual_some (by omega) he
  split at hs
  · simp at hs
  obtain ⟨hlt, x0, y0, hx0, hy0, heq⟩ := he2 (by omega)
  simp only [mem_snaps_bind, snaps_lift, List.not_mem_nil, false_or, run_lift] at hs
  obtain ⟨v, hv, hs⟩ := hs
  rw [hy0] at hv
  simp only [Option.some.injEq] at hv
  subst hv
  rcases hs with hs | ⟨other, ho, hs⟩
  · rw [findIfA_snaps (s := m) (fun w z hz => by simpa [notFn, mem_snaps_bind] using hz) s hs]; exact here
  rw [findIfA_run (g := fun w => !eq y0 w) (notFn_run (g := eq y0) fun _ => rfl)] at ho
  obtain ⟨ho1, ho2, ho3, -⟩ := findIf_some ho
  split at hs
  · simp at hs
  simp only [mem_snaps_bind, snaps_lift, List.not_mem_nil, false_or, run_lift] at hs
  obtain ⟨m1, hm1, hs⟩ := hs
  obtain ⟨k, rfl⟩ : ∃ k, other = first + k := ⟨other - first, by omega⟩
  have hk : k < xs.length := by omega
  obtain ⟨hval, hsame⟩ := assignFrom_value hm1 (hx k hk) (by omega)
  have hdrop : (vals m1).Seg (first + k + 1) (xs.drop (k + 1)) := by
    intro i hi
    rw [List.length_drop] at hi
    rw [hsame _ (by omega), show first + k + 1 + i = first + (k + 1 + i) by omega, hx _ (by omega), List.getElem_drop]
  have hlen : first + xs.length - (first + k + 1) = (xs.drop (k + 1)).length := by rw [List.length_drop]; omega
  rw [hlen] at hs
  have := uniqueCommonA_represented (eq := eq) (lo := first) (xs.drop (k + 1)) (before := xs.take (k + 1)) (by omega) (by omega) hdrop (fun x hx' => ?_) s hs
  · intro x hx'
    rw [List.take_append_drop, List.length_drop] at this
    exact (this x hx').mono (by omega)
  · obtain ⟨j, hj, rfl⟩ := List.mem_iff_getElem.1 hx'
    rw [List.length_take] at hj
    rw [List.getElem_take]
    have hxj := hx j (by omega)
    rcases Nat.lt_trichotomy (first + j) e with h | h | h
    · exact ⟨first + j, _, by omega, by omega, by rw [hsame _ (by omega), hxj], .inl rfl⟩
    · refine ⟨e - 1, x0, by omega, by omega, by rw [hsame _ (by omega), hx0], .inr ?_⟩
      rw [← h, hxj] at hy0
      simp only [Option.some.injEq] at hy0
      rw [hy0]; exact heq
    · by_cases hjk : j = k
      · subst hjk; exact ⟨e, _, by omega, by omega, hval, .inl rfl⟩
      · refine ⟨e - 1, x0, by omega, by omega, by rw [hsame _ (by omega), hx0], .inr ?_⟩
        obtain ⟨w, hw, hw'⟩ := ho3 (first + j) (by omega) (by omega)
        rw [hxj] at hw
        simp only [Option.some.injEq] at hw
        subst hw
        exact htrans _ _ _ heq (by simpa using hw')

theorem eraseIfLoopA_keeps {mk : MoveKind} {p : α → Bool} {lo : Nat} : ∀ (rest : List α) {m : Mem (Obj α)} {newLast it : Nat} {before : List α},
    lo ≤ newLast → newLast < it → (vals m).Seg it rest → (∀ x ∈ before, p x = false → ∃ a, lo ≤ a ∧ a < newLast ∧ vals m a = some x) →
    ∀ s ∈ (eraseIfLoopA mk rest.length m newLast it).snaps p,
      ∀ x ∈ before ++ rest, p x = false → ∃ a, lo ≤ a ∧ a < it + rest.length ∧ vals s a = some x
  | [], m, newLast, it, before, _, _, _, _ => by simp [eraseIfLoopA]
  | x :: rest, m, newLast, it, before, hlo, hit, hseg, hb => by
    intro s hs z hz hpz
    obtain ⟨hx0, hx1⟩ := seg_cons.1 hseg
    simp only [List.length_cons, eraseIfLoopA, mem_snaps_bind, snaps_lift, List.not_mem_nil, false_or, run_lift, snaps_call, List.mem_singleton, run_call,
      Option.some.injEq] at hs
    obtain ⟨x', hx', hs⟩ := hs
    rw [hx0] at hx'
    simp only [Option.some.injEq] at hx'
    subst hx'
    rcases hs with rfl | ⟨b, hb', hs⟩
    · rcases List.mem_append.1 hz with hz | hz
      · obtain ⟨a, h1, h2, h3⟩ := hb z hz hpz
        exact ⟨a, h1, by omega, h3⟩
      · obtain ⟨j, hj, rfl⟩ := List.mem_iff_getElem.1 hz
        exact ⟨it + j, by omega, by omega, hseg j hj⟩
    · have hlen : it + (x :: rest).length = it + 1 + rest.length := by rw [List.length_cons]; omega
      rw [hlen]
      have hz' : z ∈ (before ++ [x]) ++ rest := by simpa using hz
      cases b with
      | true =>
        refine eraseIfLoopA_keeps rest hlo (by omega) hx1 (fun w hw hpw => ?_) s hs z hz' hpz
        rcases List.mem_append.1 hw with hw | hw
        · exact hb w hw hpw
        · rw [List.mem_singleton] at hw
          subst hw
          rw [hpw] at hb'; cases hb'
      | false =>
        simp only [Bool.false_eq_true, if_false, mem_snaps_bind, snaps_lift, List.not_mem_nil, false_or, run_lift] at hs
        obtain ⟨m', hm', hs⟩ := hs
        obtain ⟨hv, hsame⟩ := assignFrom_value hm' hx0 (by omega)
        refine eraseIfLoopA_keeps rest (by omega) (by omega) (hx1.frame hsame fun i hi => by omega) (fun w hw hpw => ?_) s hs z hz' hpz
        rcases List.mem_append.1 hw with hw | hw
        · obtain ⟨a, h1, h2, h3⟩ := hb w hw hpw
          exact ⟨a, h1, by omega, by rw [hsame a (by omega), h3]⟩
        · rw [List.mem_singleton] at hw
          subst hw
          exact ⟨newLast, by omega, by omega, hv⟩

/-- `erase_if` of a vector: if the predicate throws, every element that it does not hold for is still there. -/
theorem C80_erase_if {p : α → Bool} (mk : MoveKind) {m : Mem (Obj α)} {first : Nat} {xs : List α} (hx : (vals m).Seg first xs) {g : τ → α → Option (Bool × τ)}
    (hg : Honest p g) {t : τ} {s : Mem (Obj α)} {c : List (α × Bool)} (he : Ask.exec g t (eraseIfA mk m first (first + xs.length)) = (.threw s, c)) :
    ∀ x ∈ xs, p x = false → ∃ a, first ≤ a ∧ a < first + xs.length ∧ vals s a = some x := by
  have hs := Ask.exec_threw hg he
  change s ∈ Prog.snaps _ _ at hs
  simp only [eraseIfA, mem_snaps_bind] at hs
  rcases hs with hs | ⟨e, he, hs⟩
  · rw [findIfA_snaps (s := m) (fun w z hz => by simpa using hz) s hs]
    intro x hx' _
    obtain ⟨j, hj, rfl⟩ := List.mem_iff_getElem.1 hx'
    exact ⟨first + j, by omega, by omega, hx j hj⟩
  rw [findIfA_run (g := p) fun _ => rfl] at he
  obtain ⟨he1, he2, he3, he4⟩ := findIf_some he
  split at hs
  · simp at hs
  obtain ⟨k, rfl⟩ : ∃ k, e = first + k := ⟨e - first, by omega⟩
  have hk : k < xs.length := by omega
  have hdrop : (vals m).Seg (first + k + 1) (xs.drop (k + 1)) := by
    intro i hi
    rw [List.length_drop] at hi
    rw [show first + k + 1 + i = first + (k + 1 + i) by omega, hx _ (by omega), List.getElem_drop]
  have hlen : first + xs.length - (first + k + 1) = (xs.drop (k + 1)).length := by rw [List.length_drop]; omega
  rw [hlen] at hs
  have := eraseIfLoopA_keeps (p := p) (lo := first) (xs.drop (k + 1)) (before := xs.take (k + 1)) (by omega) (by omega) hdrop (fun x hx' hpx => ?_) s hs
  · intro x hx' hpx
    rw [List.take_append_drop, List.length_drop] at this
    obtain ⟨a, h1, h2, h3⟩ := this x hx' hpx
    exact ⟨a, h1, by omega, h3⟩
  · obtain ⟨j, hj, rfl⟩ := List.mem_iff_getElem.1 hx'
    rw [List.length_take] at hj
    rw [List.getElem_take] at hpx ⊢
    have hxj := hx j (by omega)
    by_cases hjk : j = k
    · subst hjk
      obtain ⟨v, hv, hv'⟩ := he4 (by omega)
      rw [hxj] at hv
      simp only [Option.some.injEq] at hv
      subst hv
      rw [hpx] at hv'; cases hv'
    · exact ⟨first + j, by omega, by omega, hxj⟩

theorem eraseIfLoopA_run {mk : MoveKind} {p : α → Bool} {lo : Nat} : ∀ (rest : List α) {m : Mem (Obj α)} {newLast it : Nat} {kept : List α},
    (vals m).Seg lo kept → newLast = lo + kept.length → newLast < it → (vals m).Seg it rest → (∀ a, lo ≤ a → a < it + rest.length → m a ≠ none) →
    ∃ m', (eraseIfLoopA mk rest.length m newLast it).run p = some (m', newLast + (rest.filter fun x => !p x).length) ∧
      (vals m').Seg lo (kept ++ rest.filter fun x => !p x)
  | [], m, newLast, it, kept, hk, _, _, _, _ => ⟨m, rfl, by simpa using hk⟩
  | x :: rest, m, newLast, it, kept, hk, hn, hit, hseg, hl => by
    obtain ⟨hx0, hx1⟩ := seg_cons.1 hseg
    simp only [List.length_cons] at hl
    simp only [List.length_cons, eraseIfLoopA, run_bind, run_lift, run_call, hx0, Option.bind_some, run_ite]
    cases hp : p x with
    | true =>
      rw [if_pos rfl, List.filter_cons_of_neg (by simp [hp])]
      exact eraseIfLoopA_run rest hk hn (by omega) hx1 fun a h1 h2 => hl a h1 (by omega)
    | false =>
      rw [if_neg (by simp), List.filter_cons_of_pos (by simp [hp])]
      obtain ⟨m1, e1, v1, s1, l1⟩ := assignFrom_spec (mk := mk) (dst := newLast) hx0 (hl _ (by omega) (by omega)) (by cases mk <;> simp only [MoveKind.slack] <;> omega)
      rw [e1, Option.bind_some]
      have hk1 : (vals m1).Seg lo (kept ++ [x]) := by
        refine seg_append.2 ⟨hk.frame (vals_same s1) fun i hi => by omega, seg_cons.2 ⟨by rw [← hn]; exact v1, seg_nil _ _⟩⟩
      obtain ⟨m', h1, h2⟩ := eraseIfLoopA_run (mk := mk) (p := p) rest hk1 (newLast := newLast + 1) (it := it + 1) (by simp; omega) (by omega)
        (hx1.frame (vals_same s1) fun i hi => by omega) (fun a h1 h2 hc => hl a h1 (by omega) ((l1 a).1 hc))
      refine ⟨m', by rw [h1, List.length_cons]; congr 2; omega, by simpa using h2⟩

/-- If the predicate does not throw, `erase_if` leaves exactly the elements it does not hold for, in their order. -/
theorem C80_erase_if_returns (p : α → Bool) (mk : MoveKind) {m : Mem (Obj α)} {first : Nat} {xs : List α} (hx : (vals m).Seg first xs) :
    ∃ m', (eraseIfA mk m first (first + xs.length)).run p = some (m', first + (xs.filter fun x => !p x).length) ∧
      (vals m').Seg first (xs.filter fun x => !p x) := by
  have hf := findIfA_run (f := p) (m := vals m) (p := fun v => call m v) (g := p) (fun _ => rfl) first (first + xs.length)
  rw [C53_find_if (p := p) hx] at hf
  simp only [eraseIfA, run_bind, run_ite, hf, Option.bind_some]
  by_cases hk : xs.findIdx p = xs.length
  · have hall : xs.filter (fun x => !p x) = xs := List.filter_eq_self.2 fun x hx' => by
      rw [List.findIdx_eq_length] at hk; simpa using hk x hx'
    rw [hk, if_pos rfl, hall]
    exact ⟨m, rfl, hx⟩
  · have hlt : xs.findIdx p < xs.length := Nat.lt_of_le_of_ne List.findIdx_le_length hk
    rw [if_neg (by omega)]
    generalize hk' : xs.findIdx p = k at *
    have htake : (xs.take k).filter (fun x => !p x) = xs.take k := List.filter_eq_self.2 fun x hx' => by
      obtain ⟨j, hj, rfl⟩ := List.mem_iff_getElem.1 hx'
      rw [List.length_take] at hj
      rw [List.getElem_take]
      have := List.not_of_lt_findIdx (p := p) (xs := xs) (i := j) (by omega)
      simpa using this
    have hpk : p xs[k] = true := by
      subst hk'; exact List.findIdx_getElem
    have hfil : xs.filter (fun x => !p x) = xs.take k ++ (xs.drop (k + 1)).filter fun x => !p x := by
      conv_lhs => rw [← List.take_append_drop k xs, List.drop_eq_getElem_cons hlt, List.filter_append, htake, List.filter_cons_of_neg (by simp [hpk])]
    have hlen : first + xs.length - (first + k + 1) = (xs.drop (k + 1)).length := by rw [List.length_drop]; omega
    rw [hlen, hfil, List.length_append, List.length_take, Nat.min_eq_left (by omega), ← Nat.add_assoc]
    refine eraseIfLoopA_run (xs.drop (k + 1)) (fun i hi => ?_) (by rw [List.length_take]; omega) (by omega) (fun i hi => ?_) (fun a h1 h2 => ?_)
    · rw [List.length_take] at hi
      rw [List.getElem_take]; exact hx i (by omega)
    · rw [List.length_drop] at hi
      rw [show first + k + 1 + i = first + (k + 1 + i) by omega, hx _ (by omega), List.getElem_drop]
    · rw [List.length_drop] at h2
      have := hx (a - first) (by omega)
      rw [show first + (a - first) = a by omega] at this
      exact vals_live this

/-! ## What is lost -/

/-- The values left by an exception, if there was one. -/
def leftBy (n : Nat) (e : Ask.Ending (Mem (Obj α)) R) : Option (List (Option α)) :=
  (atThrow e).map fun s => (List.range n).map (vals s)

/-- A comparison of numbers that throws after `n` answers; allocation never fails. -/
def tiresLess : Nat → MergeCall Nat → Option (Bool × Nat)
  | 0, .less _ _ => none
  | n + 1, .less a b => some (decide (a < b), n)
  | n, .alloc => some (true, n)

theorem tiresLess_honest : Honest (fun | .less a b => decide (a < b) | .alloc => true) tiresLess
  | 0, .less _ _, b, t', h => by cases h
  | n + 1, .less _ _, b, t', h => by simp only [tiresLess, Option.some.injEq, Prod.mk.injEq] at h; exact h.1.symm
  | 0, .alloc, b, t', h => by simp only [tiresLess, Option.some.injEq, Prod.mk.injEq] at h; exact h.1.symm
  | n + 1, .alloc, b, t', h => by simp only [tiresLess, Option.some.injEq, Prod.mk.injEq] at h; exact h.1.symm

/-- `unique_inplace_merge` of 2, 6 and 4, where the comparison throws when it is called for the sixth time: the 6 was moved to the temporary, and is lost. -/
theorem C80_unique_inplace_merge_violated :
    leftBy 3 (Ask.exec tiresLess 5 (uniqueInplaceMergeA .clear (fun m a b => call m (MergeCall.less a b)) .alloc 3 (objs [2, 6, 4]) 0 2 3)).1 =
      some [some 2, none, some 4] := by decide +kernel

/-! ## Examples -/

/-- Six elements, and a comparison that throws when it is called for the fifth time. -/
example : leftBy 6 (Ask.exec (tires (· == ·)) 4 (uniqueA .clear (fun m a b => call m (a, b)) (objs [1, 1, 1, 2, 3, 4]) 0 6)).1 =
    some [some 1, some 2, some 3, none, none, some 4] := by decide +kernel

example {s : Mem (Obj Nat)} {c : List ((Nat × Nat) × Bool)}
    (h : Ask.exec (tires (· == ·)) 4 (uniqueA .clear (fun m a b => call m (a, b)) (objs [1, 1, 1, 2, 3, 4]) 0 6) = (.threw s, c)) :
    ∀ x ∈ [1, 1, 1, 2, 3, 4], Represented (· == ·) s 0 6 x :=
  C80_unique (eq := (· == ·)) (xs := [1, 1, 1, 2, 3, 4]) (first := 0) (fun a b c h1 h2 => by simp at *; omega) .clear (by intro i hi; simp only [List.length_cons, List.length_nil] at hi; interval_cases i <;> rfl)
    (tires_honest _) h

/-- A predicate that throws when it is called for the fifth time. -/
def tires1 (p : α → Bool) : Nat → α → Option (Bool × Nat)
  | 0, _ => none
  | n + 1, x => some (p x, n)

example : leftBy 6 (Ask.exec (tires1 fun x => x % 2 == 0) 4 (eraseIfA .clear (objs [1, 2, 3, 4, 5, 6]) 0 6)).1 =
    some [some 1, some 3, none, some 4, some 5, some 6] := by decide +kernel

end Verif.Algo
