import Verif.Algo.Unique
import Verif.Algo.SortExactlyProps

/-!
# What unique and its merges do to memory (C44)
-/

namespace Verif.Algo

open Mem

variable {α : Type}

/-- The objects of `m'` are at the same addresses as those of `m`. -/
def SameLive (m m' : Mem (Obj α)) : Prop := ∀ a, m' a = none ↔ m a = none

theorem SameLive.trans {m m' m'' : Mem (Obj α)} (h : SameLive m m') (h' : SameLive m' m'') : SameLive m m'' := fun a => (h' a).trans (h a)

/-- How far the source has to be ahead of the destination. -/
def MoveKind.slack : MoveKind → Nat
  | .clearSelf => 1
  | _ => 0

theorem vals_same {m m' : Mem (Obj α)} {S : Nat → Prop} (h : SameOff m m' S) : SameOff (vals m) (vals m') S := fun a ha => by
  rw [vals, vals, h a ha]

theorem vals_some {m : Mem (Obj α)} {a : Nat} {v : α} : vals m a = some v ↔ m a = some (.val v) := by
  rw [vals]
  rcases m a with _ | (_ | _) <;> simp

theorem vals_live {m : Mem (Obj α)} {a : Nat} {v : α} (h : vals m a = some v) : m a ≠ none := by rw [vals_some.1 h]; simp

theorem assignFrom_spec {mk : MoveKind} {m : Mem (Obj α)} {dst src : Nat} {v : α} (hv : vals m src = some v) (hd : m dst ≠ none)
    (hself : dst + mk.slack ≤ src ∨ src < dst) : ∃ m', assignFrom mk m dst src = some m' ∧ vals m' dst = some v ∧
    SameOff m m' (fun a => a = dst ∨ a = src) ∧ SameLive m m' := by
  obtain ⟨o, ho⟩ := Option.ne_none_iff_exists'.1 hd
  have hs := vals_some.1 hv
  simp only [assignFrom, hs, ho]
  refine ⟨_, rfl, ?_⟩
  cases mk with
  | keep =>
    refine ⟨vals_some.2 (upd_same ..), fun a ha => upd_other _ _ (fun h => ha (.inl h)), fun a => ?_⟩
    by_cases had : a = dst
    · subst had; simp [upd_same, ho]
    · simp only [upd_other _ _ had]
  | clear =>
    refine ⟨vals_some.2 (upd_same ..), fun a ha => ?_, fun a => ?_⟩
    · simp only [upd_other _ _ (fun h => ha (.inl h)), upd_other _ _ (fun h => ha (.inr h))]
    · by_cases had : a = dst
      · subst had; simp [upd_same, ho]
      · by_cases has : a = src
        · subst has; simp [upd_other _ _ had, upd_same, hs]
        · simp only [upd_other _ _ had, upd_other _ _ has]
  | clearSelf =>
    have hne : dst ≠ src := by simp only [MoveKind.slack] at hself; omega
    refine ⟨vals_some.2 ?_, fun a ha => ?_, fun a => ?_⟩
    · simp only [upd_other _ _ hne, upd_same]
    · simp only [upd_other _ _ (fun h => ha (.inl h)), upd_other _ _ (fun h => ha (.inr h))]
    · by_cases has : a = src
      · subst has; simp [upd_same, hs]
      · by_cases had : a = dst
        · subst had; simp [upd_other _ _ has, upd_same, ho]
        · simp only [upd_other _ _ had, upd_other _ _ has]

theorem uniqueCommon_spec {mk : MoveKind} {eq : α → α → Bool} : ∀ {xs : List α} {m : Mem (Obj α)} {it out : Nat} {o : α},
    vals m out = some o → Seg (vals m) it xs → (∀ i, i < xs.length → m (out + 1 + i) ≠ none) →
    (out + 1 + mk.slack ≤ it ∨ it + xs.length ≤ out) →
    ∃ m', uniqueCommon mk eq xs.length m it out = some (m', out + 1 + (dedupFrom eq o xs).length) ∧
      Seg (vals m') out (o :: dedupFrom eq o xs) ∧
      SameOff m m' (fun a => (out < a ∧ a < out + 1 + xs.length) ∨ (it ≤ a ∧ a < it + xs.length)) ∧ SameLive m m'
  | [], m, it, out, o, ho, _, _, _ => ⟨m, rfl, seg_cons.2 ⟨ho, seg_nil _ _⟩, fun _ _ => rfl, fun _ => Iff.rfl⟩
  | x :: xs, m, it, out, o, ho, hx, hl, hd => by
    obtain ⟨hx0, hx1⟩ := seg_cons.1 hx
    simp only [List.length_cons] at hl hd
    simp only [List.length_cons, uniqueCommon, ho, hx0, Option.bind_eq_bind, Option.bind_some, dedupFrom]
    by_cases he : eq o x = true
    · rw [if_pos he, if_pos he]
      obtain ⟨m', h1, h2, h3, h4⟩ := uniqueCommon_spec (mk := mk) (eq := eq) ho hx1 (fun i hi => hl i (by omega)) (by omega)
      exact ⟨m', h1, h2, h3.mono fun a ha => by omega, h4⟩
    · rw [if_neg he, if_neg he]
      obtain ⟨m1, e1, v1, s1, l1⟩ := assignFrom_spec (mk := mk) hx0 (hl 0 (by omega)) (by omega)
      simp only [Nat.add_zero] at e1 v1 s1
      rw [e1]
      simp only [Option.bind_some]
      obtain ⟨m', h1, h2, h3, h4⟩ := uniqueCommon_spec (mk := mk) (eq := eq) v1
        (hx1.frame (vals_same s1) fun i hi => by omega)
        (fun i hi => by
          have := hl (i + 1) (by omega)
          rw [show out + 1 + 1 + i = out + 1 + (i + 1) by omega]
          exact fun hc => this ((l1 _).1 hc)) (by omega)
      refine ⟨m', ?_, seg_cons.2 ⟨?_, h2⟩, ?_, l1.trans h4⟩
      · rw [h1, List.length_cons]; congr 2; omega
      · rw [vals_same h3 out (by omega), vals_same s1 out (by omega), ho]
      · exact (s1.mono fun a ha => by omega).trans (h3.mono fun a ha => by omega)

/-- An algorithm that writes `zs` from `out` on, returns where they end, and changes nothing but the objects in `S`. -/
def Writes (r : Option (Mem (Obj α) × Nat)) (m : Mem (Obj α)) (out : Nat) (zs : List α) (S : Nat → Prop) : Prop :=
  ∃ m', r = some (m', out + zs.length) ∧ Seg (vals m') out zs ∧ SameOff m m' S ∧ SameLive m m'

theorem Writes.mono {r : Option (Mem (Obj α) × Nat)} {m : Mem (Obj α)} {out : Nat} {zs : List α} {S T : Nat → Prop} (h : Writes r m out zs S)
    (hST : ∀ a, S a → T a) : Writes r m out zs T := by
  obtain ⟨m', h1, h2, h3, h4⟩ := h
  exact ⟨m', h1, h2, h3.mono hST, h4⟩

theorem uniqueCopy_spec {mk : MoveKind} {eq : α → α → Bool} {xs : List α} {m : Mem (Obj α)} {first out : Nat} (hx : Seg (vals m) first xs)
    (hl : ∀ i, i < xs.length → m (out + i) ≠ none) (hd : out + mk.slack ≤ first ∨ first + xs.length ≤ out) :
    Writes (uniqueCopy mk eq m first (first + xs.length) out) m out (dedup eq xs)
      (fun a => InRange out xs.length a ∨ InRange first xs.length a) := by
  cases xs with
  | nil => exact ⟨m, by simp [uniqueCopy, dedup], seg_nil _ _, fun _ _ => rfl, fun _ => Iff.rfl⟩
  | cons x xs =>
    obtain ⟨hx0, hx1⟩ := seg_cons.1 hx
    simp only [List.length_cons] at hl hd
    rw [uniqueCopy, if_neg (by simp)]
    obtain ⟨m1, e1, v1, s1, l1⟩ := assignFrom_spec (mk := mk) hx0 (hl 0 (by omega)) (by omega)
    simp only [Nat.add_zero] at e1 v1 s1
    simp only [e1, Option.bind_eq_bind, Option.bind_some]
    rw [show first + (x :: xs).length - first - 1 = xs.length by rw [List.length_cons]; omega]
    obtain ⟨m', h1, h2, h3, h4⟩ := uniqueCommon_spec (mk := mk) (eq := eq) v1 (hx1.frame (vals_same s1) fun i hi => by omega)
      (fun i hi => by
        have := hl (i + 1) (by omega)
        rw [show out + 1 + i = out + (i + 1) by omega]
        exact fun hc => this ((l1 _).1 hc)) (by omega)
    refine ⟨m', ?_, h2, ?_, l1.trans h4⟩
    · rw [h1, dedup, List.length_cons]; congr 2; omega
    · refine (s1.mono fun a ha => ?_).trans (h3.mono fun a ha => ?_)
      · simp only [InRange, List.length_cons]; omega
      · simp only [InRange, List.length_cons]; omega

/-! ## unique -/

theorem findFirstEqualLoop_spec {eq : α → α → Bool} {m : Mem α} : ∀ {xs : List α} {p : Nat} {o : α}, m p = some o → Seg m (p + 1) xs →
    (findFirstEqualLoop eq m xs.length p (p + 1) = some (p + 1 + xs.length) ∧ dedupFrom eq o xs = xs ∧
      (∀ pre l e post, o :: xs = pre ++ l :: e :: post → eq l e = false)) ∨
    ∃ pre l e post, o :: xs = pre ++ l :: e :: post ∧ eq l e = true ∧
      findFirstEqualLoop eq m xs.length p (p + 1) = some (p + pre.length + 1) ∧ (dedup eq (o :: xs) = pre ++ l :: dedupFrom eq l (e :: post))
  | [], p, o, ho, _ => .inl ⟨rfl, rfl, fun pre l e post h => by
      have := congrArg List.length h
      simp at this; omega⟩
  | x :: xs, p, o, ho, hx => by
    obtain ⟨hx0, hx1⟩ := seg_cons.1 hx
    simp only [List.length_cons, findFirstEqualLoop, ho, hx0, Option.bind_eq_bind, Option.bind_some]
    by_cases he : eq o x = true
    · exact .inr ⟨[], o, x, xs, rfl, he, by simp [he], by rw [dedup]; rfl⟩
    · rw [if_neg he]
      have he' : eq o x = false := by simpa using he
      rcases findFirstEqualLoop_spec (eq := eq) hx0 hx1 with ⟨h1, h2, h3⟩ | ⟨pre, l, e, post, h1, h2, h3, h4⟩
      · refine .inl ⟨by rw [h1]; congr 1; omega, by rw [dedupFrom, if_neg he, h2], fun pre l e post h => ?_⟩
        cases pre with
        | nil =>
          simp only [List.nil_append, List.cons.injEq] at h
          rw [← h.1, ← h.2.1, he']
        | cons q pre =>
          simp only [List.cons_append, List.cons.injEq] at h
          exact h3 pre l e post h.2
      · refine .inr ⟨o :: pre, l, e, post, by rw [h1]; rfl, h2, ?_, ?_⟩
        · rw [h3, List.length_cons]; congr 1; omega
        · rw [dedup] at h4 ⊢
          rw [dedupFrom, if_neg he, h4]
          rfl

theorem dedupFrom_dropTo {eq : α → α → Bool} (l : α) : ∀ xs : List α, dedupFrom eq l xs =
    match dropTo (fun x => !eq l x) xs with
    | [] => []
    | y :: ys => y :: dedupFrom eq y ys
  | [] => rfl
  | x :: xs => by
    rw [dedupFrom, dropTo, List.findIdx_cons]
    cases h : eq l x with
    | false => rfl
    | true =>
      rw [if_pos rfl, dedupFrom_dropTo l xs]
      rfl

theorem dropTo_congr {p q : α → Bool} : ∀ {xs : List α}, (∀ x ∈ xs, p x = q x) → dropTo p xs = dropTo q xs
  | [], _ => rfl
  | x :: xs, h => by
    have ih := dropTo_congr (xs := xs) fun y hy => h y (by simp [hy])
    rw [dropTo, dropTo, List.findIdx_cons, List.findIdx_cons, h x (by simp)]
    cases q x with
    | true => rfl
    | false => exact ih

theorem Mem.Seg.drop {m : Mem α} {b : Nat} {xs : List α} (h : Seg m b xs) {k : Nat} (hk : k ≤ xs.length) : Seg m (b + k) (xs.drop k) := by
  rw [← List.take_append_drop k xs] at h
  have := (seg_append.1 h).2
  rwa [List.length_take, Nat.min_eq_left hk] at this

theorem unique_spec {mk : MoveKind} {eq : α → α → Bool} {xs : List α} {m : Mem (Obj α)} {first : Nat} (hx : Seg (vals m) first xs)
    (hr : ∀ a b c, [a, b, c].Sublist xs → eq a b = true → eq a c = eq b c) :
    Writes (unique mk eq m first (first + xs.length)) m first (dedup eq xs) (InRange first xs.length) := by
  cases xs with
  | nil => exact ⟨m, by simp [unique, findFirstEqual, dedup], seg_nil _ _, fun _ _ => rfl, fun _ => Iff.rfl⟩
  | cons x xs =>
    obtain ⟨hx0, hx1⟩ := seg_cons.1 hx
    rw [unique, findFirstEqual, if_neg (by simp), show first + (x :: xs).length - first - 1 = xs.length by rw [List.length_cons]; omega]
    rcases findFirstEqualLoop_spec (eq := eq) hx0 hx1 with ⟨h1, h2, h3⟩ | ⟨pre, l, e, post, h1, h2, h3, h4⟩
    · rw [h1]
      simp only [Option.bind_eq_bind, Option.bind_some, List.length_cons]
      rw [if_pos (by omega)]
      refine ⟨m, ?_, ?_, fun _ _ => rfl, fun _ => Iff.rfl⟩
      · rw [dedup, h2, List.length_cons]; congr 2; omega
      · rw [dedup, h2]; exact hx
    · rw [h3]
      rw [h1] at hx hr
      obtain ⟨q1, q2⟩ := seg_append.1 hx
      obtain ⟨q3, q4⟩ := seg_cons.1 q2
      obtain ⟨q5, q6⟩ := seg_cons.1 q4
      rw [h4, dedupFrom, if_pos h2, dedupFrom_dropTo]
      have hle : ∀ c ∈ post, eq l c = eq e c := fun c hc => hr l e c
        ((List.Sublist.cons_cons l (List.Sublist.cons_cons e (by simpa using hc))).trans (List.sublist_append_right _ _)) h2
      rw [dropTo_congr (q := fun c => !eq e c) fun c hc => by rw [hle c hc]]
      have hlen : (x :: xs).length = pre.length + (post.length + 1 + 1) := by rw [h1]; simp
      simp only [Option.bind_eq_bind, Option.bind_some, hlen, show first + pre.length + 1 ≠ first + (pre.length + (post.length + 1 + 1)) by omega, if_false, q5]
      rw [show first + (pre.length + (post.length + 1 + 1)) = first + pre.length + 1 + 1 + post.length by omega, C53_find_if q6]
      simp only [Option.bind_some]
      have hidx : post.findIdx (fun c => !eq e c) ≤ post.length := List.findIdx_le_length
      have hd := q6.drop hidx
      have hdl : (dropTo (fun c => !eq e c) post).length = post.length - post.findIdx (fun c => !eq e c) := by rw [dropTo, List.length_drop]
      change Seg _ _ (dropTo (fun c => !eq e c) post) at hd
      generalize post.findIdx (fun c => !eq e c) = k at *
      cases hdt : dropTo (fun c => !eq e c) post with
      | nil =>
        rw [hdt, List.length_nil] at hdl
        rw [if_pos (by omega)]
        refine ⟨m, ?_, ?_, fun _ _ => rfl, fun _ => Iff.rfl⟩
        · simp only [List.length_append, List.length_cons, List.length_nil]; congr 2
        · exact seg_append.2 ⟨q1, seg_cons.2 ⟨q3, seg_nil _ _⟩⟩
      | cons y ys =>
        rw [hdt] at hd hdl
        rw [List.length_cons] at hdl
        obtain ⟨d0, d1⟩ := seg_cons.1 hd
        rw [if_neg (by omega)]
        obtain ⟨m1, e1, v1, s1, l1⟩ := assignFrom_spec (mk := mk) (dst := first + pre.length + 1) d0 (vals_live q5) (by
          have : mk.slack ≤ 1 := by cases mk <;> simp [MoveKind.slack]
          omega)
        rw [e1]
        simp only [Option.bind_some]
        rw [show first + pre.length + 1 + 1 + post.length - (first + pre.length + 1 + 1 + k + 1) = ys.length by omega]
        have hlive : ∀ a, first + pre.length + 1 ≤ a → a < first + pre.length + 1 + (post.length + 1) → m a ≠ none := by
          intro a h1 h2
          have := q4 (a - (first + pre.length + 1)) (by rw [List.length_cons]; omega)
          rw [show first + pre.length + 1 + (a - (first + pre.length + 1)) = a by omega] at this
          exact vals_live this
        obtain ⟨m', h1, h2, h3, h4⟩ := uniqueCommon_spec (mk := mk) (eq := eq) v1 (d1.frame (vals_same s1) fun i hi => by omega)
          (fun i hi hc => hlive _ (by omega) (by omega) ((l1 _).1 hc)) (by
          have : mk.slack ≤ 1 := by cases mk <;> simp [MoveKind.slack]
          omega)
        have hS : SameOff m m' (fun a => first + pre.length + 1 ≤ a ∧ a < first + pre.length + 1 + 1 + post.length) :=
          (s1.mono fun a ha => by omega).trans (h3.mono fun a ha => by omega)
        refine ⟨m', ?_, ?_, hS.mono fun a ha => by simp only [InRange]; omega, l1.trans h4⟩
        · rw [h1]; simp only [List.length_append, List.length_cons]; congr 2; omega
        · refine seg_append.2 ⟨q1.frame (vals_same hS) fun i hi => by omega, seg_cons.2 ⟨?_, h2⟩⟩
          rw [vals_same hS _ (by omega), q3]

/-! ## Merging -/

theorem Mem.Seg.dropTo {m : Mem α} {b : Nat} {xs : List α} (h : Seg m b xs) (p : α → Bool) : Seg m (b + xs.findIdx p) (dropTo p xs) :=
  h.drop List.findIdx_le_length

theorem dropTo_end (p : α → Bool) (xs : List α) : xs.findIdx p + (dropTo p xs).length = xs.length := by
  have : xs.findIdx p ≤ xs.length := List.findIdx_le_length
  rw [dropTo, List.length_drop]; omega

theorem uniqueMergeCopy_spec {mk : MoveKind} {lt : α → α → Bool} : ∀ {f : Nat} {r1 r2 : List α} {m : Mem (Obj α)} {first1 first2 out : Nat},
    r1.length + r2.length < f → Seg (vals m) first1 r1 → Seg (vals m) first2 r2 →
    (∀ i, i < r1.length + r2.length → m (out + i) ≠ none) →
    (out + r1.length + r2.length ≤ first1 ∨ first1 + r1.length ≤ out) →
    (first1 + r1.length ≤ first2 ∨ first2 + r2.length ≤ first1) →
    (out + r1.length + mk.slack ≤ first2 ∨ first2 + r2.length ≤ out) →
    Writes (uniqueMergeCopy mk lt f m first1 (first1 + r1.length) first2 (first2 + r2.length) out) m out (mergeU lt r1 r2)
      (fun a => InRange out (r1.length + r2.length) a ∨ InRange first1 r1.length a ∨ InRange first2 r2.length a)
  | 0, _, _, _, _, _, _, hf, _, _, _, _, _, _ => by omega
  | f + 1, [], r2, m, first1, first2, out, hf, h1, h2, hl, _, _, hd => by
    simp only [List.length_nil, Nat.zero_add, Nat.add_zero] at hl hd ⊢
    rw [uniqueMergeCopy, if_neg (by simp), if_neg (by simp), mergeU]
    exact (uniqueCopy_spec h2 hl hd).mono fun a ha => by simp only [InRange] at *; omega
  | f + 1, a :: r1, [], m, first1, first2, out, hf, h1, h2, hl, hd1, _, _ => by
    simp only [List.length_nil, Nat.add_zero] at hl hd1 ⊢
    have hne : first1 ≠ first1 + (a :: r1).length := by rw [List.length_cons]; omega
    rw [uniqueMergeCopy, if_neg (by simp), if_pos hne, show mergeU lt (a :: r1) [] = dedup (fun a b => !lt a b) (a :: r1) by simp [mergeU]]
    refine (uniqueCopy_spec h1 hl ?_).mono fun a ha => by simp only [InRange] at *; omega
    have : mk.slack ≤ 1 := by cases mk <;> simp [MoveKind.slack]
    rw [List.length_cons] at *; omega
  | f + 1, a :: r1, b :: r2, m, first1, first2, out, hf, h1, h2, hl, hd1, hd2, hd3 => by
    have hsl : mk.slack ≤ 1 := by cases mk <;> simp [MoveKind.slack]
    obtain ⟨p0, p1⟩ := seg_cons.1 h1
    obtain ⟨q0, q1⟩ := seg_cons.1 h2
    simp only [List.length_cons] at hf hl hd1 hd2 hd3
    rw [uniqueMergeCopy, if_pos (by simp)]
    simp only [p0, q0, Option.bind_eq_bind, Option.bind_some]
    rw [mergeU]
    by_cases hba : lt b a = true
    · simp only [if_pos hba]
      obtain ⟨m1, e1, v1, s1, l1⟩ := assignFrom_spec (mk := mk) (dst := out) q0 (hl 0 (by omega)) (by omega)
      rw [e1]
      simp only [Option.bind_some, v1]
      have h1' : Seg (vals m1) first1 (a :: r1) := h1.frame (vals_same s1) fun i hi => by rw [List.length_cons] at hi; omega
      have q1' : Seg (vals m1) (first2 + 1) r2 := q1.frame (vals_same s1) fun i hi => by omega
      rw [nextGreater, C53_find_if h1', nextGreater, List.length_cons (a := b), show first2 + (r2.length + 1) = first2 + 1 + r2.length by omega, C53_find_if q1']
      simp only [Option.bind_some]
      have t1 := h1'.dropTo (lt b)
      have t2 := q1'.dropTo (lt b)
      have u1 := dropTo_end (lt b) (a :: r1)
      have u2 := dropTo_end (lt b) r2
      simp only [List.length_cons] at u1 ⊢
      generalize List.findIdx (fun v => lt b v) (a :: r1) = i at *
      generalize List.findIdx (fun v => lt b v) r2 = j at *
      rw [show first1 + (r1.length + 1) = first1 + i + (dropTo (lt b) (a :: r1)).length by omega,
        show first2 + 1 + r2.length = first2 + 1 + j + (dropTo (lt b) r2).length by omega]
      obtain ⟨m', w1, w2, w3, w4⟩ := uniqueMergeCopy_spec (mk := mk) (lt := lt) (f := f) (out := out + 1) (by omega) t1 t2
        (fun k hk hc => by
          have := hl (k + 1) (by omega)
          rw [show out + 1 + k = out + (k + 1) by omega] at hc
          exact this ((l1 _).1 hc)) (by omega) (by omega) (by omega)
      refine ⟨m', by rw [w1, List.length_cons]; congr 2; omega, seg_cons.2 ⟨?_, w2⟩, ?_, l1.trans w4⟩
      · rw [vals_same w3 out (by simp only [InRange]; omega), v1]
      · refine (s1.mono fun a ha => ?_).trans (w3.mono fun a ha => ?_) <;> simp only [InRange] at * <;> omega
    · simp only [if_neg hba]
      obtain ⟨m1, e1, v1, s1, l1⟩ := assignFrom_spec (mk := mk) (dst := out) p0 (hl 0 (by omega)) (by omega)
      rw [e1]
      simp only [Option.bind_some, v1]
      have p1' : Seg (vals m1) (first1 + 1) r1 := p1.frame (vals_same s1) fun i hi => by omega
      have h2' : Seg (vals m1) first2 (b :: r2) := h2.frame (vals_same s1) fun i hi => by rw [List.length_cons] at hi; omega
      rw [nextGreater, List.length_cons (a := a), show first1 + (r1.length + 1) = first1 + 1 + r1.length by omega, C53_find_if p1', nextGreater, C53_find_if h2']
      simp only [Option.bind_some]
      have t1 := p1'.dropTo (lt a)
      have t2 := h2'.dropTo (lt a)
      have u1 := dropTo_end (lt a) r1
      have u2 := dropTo_end (lt a) (b :: r2)
      simp only [List.length_cons] at u2 ⊢
      generalize List.findIdx (fun v => lt a v) r1 = i at *
      generalize List.findIdx (fun v => lt a v) (b :: r2) = j at *
      rw [show first1 + 1 + r1.length = first1 + 1 + i + (dropTo (lt a) r1).length by omega,
        show first2 + (r2.length + 1) = first2 + j + (dropTo (lt a) (b :: r2)).length by omega]
      obtain ⟨m', w1, w2, w3, w4⟩ := uniqueMergeCopy_spec (mk := mk) (lt := lt) (f := f) (out := out + 1) (by omega) t1 t2
        (fun k hk hc => by
          have := hl (k + 1) (by omega)
          rw [show out + 1 + k = out + (k + 1) by omega] at hc
          exact this ((l1 _).1 hc)) (by omega) (by omega) (by omega)
      refine ⟨m', by rw [w1, List.length_cons]; congr 2; omega, seg_cons.2 ⟨?_, w2⟩, ?_, l1.trans w4⟩
      · rw [vals_same w3 out (by simp only [InRange]; omega), v1]
      · refine (s1.mono fun a ha => ?_).trans (w3.mono fun a ha => ?_) <;> simp only [InRange] at * <;> omega

theorem moveConstruct_spec {mk : MoveKind} : ∀ {xs : List α} {m : Mem (Obj α)} {src dst : Nat}, Seg (vals m) src xs → Raw m dst xs.length →
    (src + xs.length ≤ dst ∨ dst + xs.length ≤ src) → ∃ m', moveConstruct mk m src dst xs.length = some m' ∧ Seg (vals m') dst xs ∧
      SameOff m m' (fun a => InRange src xs.length a ∨ InRange dst xs.length a) ∧ ∀ a, InRange src xs.length a → m' a ≠ none
  | [], m, src, dst, _, _, _ => ⟨m, rfl, seg_nil _ _, fun _ _ => rfl, fun a ha => by simp only [InRange, List.length_nil] at ha; omega⟩
  | x :: xs, m, src, dst, hx, hr, hd => by
    obtain ⟨hx0, hx1⟩ := seg_cons.1 hx
    have hr0 := hr 0 (by simp)
    rw [Nat.add_zero] at hr0
    simp only [List.length_cons] at hr hd
    have key : ∀ m1 : Mem (Obj α), vals m1 dst = some x → m1 src ≠ none → SameOff m m1 (fun a => a = src ∨ a = dst) →
        ∃ m', moveConstruct mk m1 (src + 1) (dst + 1) xs.length = some m' ∧ Seg (vals m') dst (x :: xs) ∧
          SameOff m m' (fun a => InRange src (xs.length + 1) a ∨ InRange dst (xs.length + 1) a) ∧
          ∀ a, InRange src (xs.length + 1) a → m' a ≠ none := by
      intro m1 h1 h2 s1
      obtain ⟨m', w1, w2, w3, w4⟩ := moveConstruct_spec (mk := mk) (src := src + 1) (dst := dst + 1)
        (hx1.frame (vals_same s1) fun i hi => by omega)
        (Raw.frame (m := m) (fun i hi => by rw [show dst + 1 + i = dst + (i + 1) by omega]; exact hr (i + 1) (by omega)) s1 fun i hi => by omega)
        (by omega)
      refine ⟨m', w1, seg_cons.2 ⟨?_, w2⟩, ?_, fun a ha => ?_⟩
      · rw [vals_same w3 dst (by simp only [InRange]; omega), h1]
      · refine (s1.mono fun a ha => ?_).trans (w3.mono fun a ha => ?_) <;> simp only [InRange] at * <;> omega
      · by_cases has : a = src
        · subst has
          rw [w3 a (by simp only [InRange]; omega)]
          exact h2
        · exact w4 a (by simp only [InRange] at *; omega)
    simp only [List.length_cons, moveConstruct, vals_some.1 hx0, hr0]
    have hne : dst ≠ src := by omega
    cases mk with
    | keep =>
      dsimp only
      refine key _ (vals_some.2 (upd_same ..)) ?_ fun a ha => upd_other _ _ fun h => ha (.inr h)
      rw [upd_other _ _ hne.symm, vals_some.1 hx0]; simp
    | clear =>
      dsimp only
      refine key _ (vals_some.2 ?_) (by rw [upd_same]; simp) fun a ha => ?_
      · rw [upd_other _ _ hne, upd_same]
      · rw [upd_other _ _ (fun h => ha (.inl h)), upd_other _ _ fun h => ha (.inr h)]
    | clearSelf =>
      dsimp only
      refine key _ (vals_some.2 ?_) (by rw [upd_same]; simp) fun a ha => ?_
      · rw [upd_other _ _ hne, upd_same]
      · rw [upd_other _ _ (fun h => ha (.inl h)), upd_other _ _ fun h => ha (.inr h)]

theorem mergeThroughTemp_spec {mk : MoveKind} {lt : α → α → Bool} {r1 r2 : List α} {m : Mem (Obj α)} {target middle newMiddle last tmp : Nat}
    (h1 : Seg (vals m) target r1) (h2 : Seg (vals m) newMiddle r2) (hm : middle = target + r1.length) (hn : middle + mk.slack ≤ newMiddle)
    (hl : last = newMiddle + r2.length) (hlive : ∀ a, target ≤ a → a < last → m a ≠ none) (hraw : Raw m tmp r1.length)
    (htmp : last ≤ tmp ∨ tmp + r1.length ≤ target) :
    Writes (mergeThroughTemp mk lt tmp m target middle newMiddle last) m target (mergeU lt r1 r2) (fun a => target ≤ a ∧ a < last) := by
  subst hm hl
  obtain ⟨m1, e1, v1, s1, l1⟩ := moveConstruct_spec (mk := mk) h1 hraw (by omega)
  rw [mergeThroughTemp, Nat.add_sub_cancel_left, e1]
  simp only [Option.bind_eq_bind, Option.bind_some]
  have hlive1 : ∀ a, target ≤ a → a < newMiddle + r2.length → m1 a ≠ none := by
    intro a ha ha'
    by_cases hin : InRange target r1.length a
    · exact l1 a hin
    · rw [s1 a (by simp only [InRange] at *; omega)]
      exact hlive a ha ha'
  obtain ⟨m2, w1, w2, w3, w4⟩ := uniqueMergeCopy_spec (mk := mk) (lt := lt) (f := newMiddle + r2.length - target + 1) (out := target) (by omega) v1
    (h2.frame (vals_same s1) fun i hi => by simp only [InRange]; omega) (fun i hi => hlive1 _ (by omega) (by omega)) (by omega) (by omega) (by omega)
  rw [w1]
  have hlen := mergeU_length lt r1 r2
  have hS : SameOff m (destroyTemp m2 tmp r1.length) (fun a => target ≤ a ∧ a < newMiddle + r2.length) := by
    intro a ha
    rw [destroyTemp]
    split
    · rename_i ht
      have := hraw (a - tmp) (by omega)
      rw [show tmp + (a - tmp) = a by omega] at this
      exact this.symm
    · rw [w3 a (by simp only [InRange]; omega), s1 a (by simp only [InRange]; omega)]
  refine ⟨_, rfl, fun i hi => ?_, hS, fun a => ?_⟩
  · have := w2 i hi
    rwa [vals, destroyTemp, if_neg (by omega)]
  · by_cases ha : target ≤ a ∧ a < newMiddle + r2.length
    · rw [destroyTemp, if_neg (by omega)]
      constructor
      · intro hc; exact absurd ((w4 a).1 hc) (hlive1 a ha.1 ha.2)
      · intro hc; exact absurd hc (hlive a ha.1 ha.2)
    · rw [hS a ha]

theorem firstToMove_spec {lt : α → α → Bool} {m : Mem α} {middle : Nat} {mid : α} (hmid : m middle = some mid) : ∀ {xs : List α} {before : Nat} {a : α},
    m before = some a → Seg m (before + 1) xs → lt mid a = false →
    ∃ K l M, a :: xs = K ++ l :: M ∧ firstToMove lt m middle xs.length before = some (before + K.length) ∧ lt mid l = false ∧
      (M = [] ∨ ∃ y ∈ M.head?, lt mid y = true)
  | [], before, a, _, _, ha => ⟨[], a, [], rfl, rfl, ha, .inl rfl⟩
  | x :: xs, before, a, h0, hx, ha => by
    obtain ⟨hx0, hx1⟩ := seg_cons.1 hx
    simp only [List.length_cons, firstToMove, hmid, hx0, Option.bind_eq_bind, Option.bind_some]
    by_cases hmx : lt mid x = true
    · exact ⟨[], a, x :: xs, rfl, by simp [hmx], ha, .inr ⟨x, by simp, hmx⟩⟩
    · rw [if_neg hmx]
      obtain ⟨K, l, M, h1, h2, h3, h4⟩ := firstToMove_spec hmid hx0 hx1 (by simpa using hmx)
      exact ⟨a :: K, l, M, by rw [h1]; rfl, by rw [h2, List.length_cons]; congr 1; omega, h3, h4⟩

theorem sorted_runs {lt : α → α → Bool} (h : StrictWeak lt) {xs : List α} (hs : Sorted lt xs) (a b c : α) (habc : [a, b, c].Sublist xs)
    (hab : (!lt a b) = true) : (!lt a c) = !lt b c := by
  have hs' : Sorted lt [a, b, c] := List.Pairwise.sublist habc hs
  simp only [Sorted, List.pairwise_cons, List.mem_cons, List.not_mem_nil, or_false, forall_eq_or_imp, forall_eq] at hs'
  have hba := hs'.1.1
  have hab' : lt a b = false := by simpa using hab
  congr 1
  cases hac : lt a c with
  | true =>
    symm
    exact h.lt_of_le_of_lt (b := a) hab' hac
  | false =>
    cases hbc : lt b c with
    | false => rfl
    | true => rw [h.lt_of_le_of_lt (b := b) hba hbc] at hac; exact hac.symm

theorem IsUniqued.prefix {lt : α → α → Bool} (h : StrictWeak lt) {xs zs : List α} (hu : IsUniqued lt xs zs) : ∀ {K : List α},
    K.Pairwise (fun a b => lt a b = true) → (∀ k ∈ K, ∀ x ∈ xs, lt k x = true) → IsUniqued lt (K ++ xs) (K ++ zs)
  | [], _, _ => hu
  | k :: K, hK, hlt => by
    obtain ⟨hk, hK'⟩ := List.pairwise_cons.1 hK
    have hall : ∀ x ∈ K ++ xs, lt k x = true := fun x hx => (List.mem_append.1 hx).elim (hk x) (hlt k (by simp) x)
    refine (hu.prefix h hK' fun k' hk' => hlt k' (by simp [hk'])).cons h (by rw [List.cons_append, List.find?_cons_of_pos (equiv_self h k)])
      (by rw [List.cons_append, List.filter_cons_of_neg (by simp [h.irrefl k]), List.filter_eq_self.2 hall]) fun x hx => ?_
    rcases List.mem_cons.1 hx with rfl | hx
    · exact .inr (equiv_self h x)
    · exact .inl (hall x hx)

theorem Writes.prefix {r : Option (Mem (Obj α) × Nat)} {m : Mem (Obj α)} {first : Nat} {K zs : List α} {S : Nat → Prop} (h : Writes r m (first + K.length) zs S)
    (hK : Seg (vals m) first K) (hS : ∀ i, i < K.length → ¬ S (first + i)) : Writes r m first (K ++ zs) S := by
  obtain ⟨m', h1, h2, h3, h4⟩ := h
  exact ⟨m', by rw [h1, List.length_append]; congr 2; omega, seg_append.2 ⟨hK.frame (vals_same h3) hS, h2⟩, h3, h4⟩

theorem inplaceAsserts_spec {lt : α → α → Bool} (h : StrictWeak lt) {m : Mem α} {r1 r2 : List α} {first : Nat} (h1 : Seg m first r1)
    (h2 : Seg m (first + r1.length) r2) (hs1 : r1.Pairwise fun a b => lt a b = true) (hs2 : Sorted lt r2) :
    inplaceAsserts lt m first (first + r1.length) (first + r1.length + r2.length) = some () := by
  have hs1' : Sorted lt r1 := hs1.imp fun hab => h.asymm hab
  obtain ⟨b1, e1, i1⟩ := C38_is_sorted h h1
  obtain ⟨b2, e2, i2⟩ := C38_is_sorted h h2
  have hb1 := i1.2 hs1'
  have hb2 := i2.2 hs2
  subst hb1 hb2
  rw [inplaceAsserts, Nat.add_sub_cancel_left, Nat.add_sub_cancel_left, e1, e2]
  have he : findFirstEqual (fun l r => !lt l r && !lt r l) m first (first + r1.length) = some (first + r1.length) := by
    cases r1 with
    | nil => simp [findFirstEqual]
    | cons x xs =>
      rw [findFirstEqual, if_neg (by simp), show first + (x :: xs).length - first - 1 = xs.length by rw [List.length_cons]; omega]
      obtain ⟨h10, h11⟩ := seg_cons.1 h1
      rcases findFirstEqualLoop_spec (eq := fun l r => !lt l r && !lt r l) h10 h11 with ⟨w1, -, -⟩ | ⟨pre, l, e, post, w1, w2, -, -⟩
      · rw [w1, List.length_cons]; congr 1; omega
      · rw [w1] at hs1
        have := (List.pairwise_append.1 hs1).2.1
        have := (List.pairwise_cons.1 this).1 e (by simp)
        simp [this] at w2
  simp [he]

theorem live_of_seg {m : Mem (Obj α)} {b : Nat} {xs : List α} (h : Seg (vals m) b xs) {a : Nat} (h1 : b ≤ a) (h2 : a < b + xs.length) : m a ≠ none := by
  have := h (a - b) (by omega)
  rw [show b + (a - b) = a by omega] at this
  exact vals_live this

theorem uniqueInplaceMerge_spec {mk : MoveKind} {lt : α → α → Bool} (h : StrictWeak lt) (hk : mk ≠ .clearSelf) {m : Mem (Obj α)} {r1 r2 : List α} {first tmp : Nat}
    (h1 : Seg (vals m) first r1) (h2 : Seg (vals m) (first + r1.length) r2) (hs1 : r1.Pairwise fun a b => lt a b = true) (hs2 : Sorted lt r2)
    (hraw : Raw m tmp r1.length) :
    ∃ zs, IsUniqued lt (r1 ++ r2) zs ∧
      Writes (uniqueInplaceMerge mk lt tmp m first (first + r1.length) (first + r1.length + r2.length)) m first zs
        (InRange first (r1.length + r2.length)) := by
  have hsl : mk.slack = 0 := by cases mk <;> first | rfl | exact absurd rfl hk
  have hs1' : Sorted lt r1 := hs1.imp fun hab => h.asymm hab
  rw [uniqueInplaceMerge, inplaceAsserts_spec h h1 h2 hs1 hs2]
  simp only [Option.bind_eq_bind, Option.bind_some]
  have h12 : Seg (vals m) first (r1 ++ r2) := seg_append.2 ⟨h1, h2⟩
  have hlive : ∀ a, first ≤ a → a < first + r1.length + r2.length → m a ≠ none := fun a ha ha' =>
    live_of_seg h12 ha (by rw [List.length_append]; omega)
  have htmp : r1.length ≠ 0 → first + r1.length + r2.length ≤ tmp ∨ tmp + r1.length ≤ first := by
    intro hne
    by_contra hc
    by_cases hcase : first ≤ tmp
    · exact hlive tmp hcase (by omega) (by have := hraw 0 (by omega); rwa [Nat.add_zero] at this)
    · have := hraw (first - tmp) (by omega)
      rw [show tmp + (first - tmp) = first by omega] at this
      exact hlive first (by omega) (by omega) this
  cases r1 with
  | nil =>
    rw [if_pos (by simp)]
    refine ⟨_, dedup_uniqued h hs2, ?_⟩
    have := unique_spec (mk := mk) (eq := fun a b => !lt a b) h2 (sorted_runs h hs2)
    simp only [List.length_nil, Nat.add_zero, Nat.zero_add] at this ⊢
    exact this
  | cons a r1 =>
    cases r2 with
    | nil =>
      rw [if_pos (by simp), List.append_nil]
      refine ⟨_, dedup_uniqued h hs1', ?_⟩
      exact unique_spec (mk := mk) (eq := fun a b => !lt a b) h1 (sorted_runs h hs1')
    | cons b r2 =>
      obtain ⟨p0, p1⟩ := seg_cons.1 h1
      obtain ⟨q0, q1⟩ := seg_cons.1 h2
      rw [if_neg (by simp)]
      simp only [p0, q0, Option.bind_some]
      by_cases hba : lt b a = true
      · rw [if_pos hba]
        refine ⟨_, mergeU_uniqued h hs1' hs2, ?_⟩
        exact (mergeThroughTemp_spec h1 h2 rfl (by omega) rfl hlive hraw (htmp (by simp))).mono fun a ha => by simp only [InRange]; omega
      · rw [if_neg hba, show first + (a :: r1).length - first - 1 = r1.length by rw [List.length_cons]; omega]
        obtain ⟨K, l, M, w1, w2, w3, w4⟩ := firstToMove_spec q0 p0 p1 (by simpa using hba)
        rw [w2]
        simp only [Option.bind_some]
        have hlen : (a :: r1).length = K.length + (M.length + 1) := by rw [w1]; simp
        rw [w1] at h1 hs1 hs1'
        obtain ⟨k0, k1⟩ := seg_append.1 h1
        obtain ⟨k2, k3⟩ := seg_cons.1 k1
        obtain ⟨o1, o2, o3⟩ := List.pairwise_append.1 hs1
        obtain ⟨o4, o5⟩ := List.pairwise_cons.1 o2
        obtain ⟨hb, hs2'⟩ := List.pairwise_cons.1 hs2
        have hlr2 : ∀ x ∈ b :: r2, lt x l = false := by
          intro x hx
          rcases List.mem_cons.1 hx with rfl | hx
          · exact w3
          · exact h.negTrans w3 (hb x hx)
        have hKl : ∀ k ∈ K, lt k l = true := fun k hk => o3 k hk l (by simp)
        have hKr2 : ∀ k ∈ K, ∀ x ∈ b :: r2, lt k x = true := fun k hk x hx => h.lt_of_lt_of_le (hKl k hk) (hlr2 x hx)
        have hcov : ∀ x ∈ b :: r2, lt l x = true ∨ equiv lt l x = true := by
          intro x hx
          cases hlx : lt l x with
          | true => exact .inl rfl
          | false => exact .inr (equiv_iff.2 ⟨hlx, hlr2 x hx⟩)
        rw [w1, List.append_assoc, List.cons_append]
        by_cases hM : M = []
        · subst hM
          simp only [List.length_nil, Nat.zero_add] at hlen
          simp only [List.length_append, List.length_cons, List.length_nil, Nat.zero_add, List.nil_append]
          rw [if_pos (by omega)]
          have hs : Sorted lt (l :: b :: r2) := List.pairwise_cons.2 ⟨hlr2, hs2⟩
          refine ⟨_, (dedup_uniqued h hs).prefix h o1 fun k hk x hx => ?_, ?_⟩
          · rcases List.mem_cons.1 hx with rfl | hx
            · exact hKl k hk
            · exact hKr2 k hk x hx
          · have hseg : Seg (vals m) (first + K.length) (l :: b :: r2) := by
              refine seg_cons.2 ⟨k2, ?_⟩
              rw [hlen] at h2
              exact h2
            have := unique_spec (mk := mk) (eq := fun a b => !lt a b) hseg (sorted_runs h hs)
            simp only [List.length_cons] at this
            rw [show first + K.length + (r2.length + 1 + 1) = first + (K.length + 1) + (r2.length + 1) by omega] at this
            exact (this.prefix k0 fun i hi => by simp only [InRange]; omega).mono fun a ha => by simp only [InRange] at *; omega
        · have hMl : 0 < M.length := List.length_pos_iff.2 hM
          rw [if_neg (by simp only [List.length_append, List.length_cons]; omega), k2]
          simp only [Option.bind_some]
          rw [nextGreater, ← w1, C53_find_if h2]
          simp only [Option.bind_some]
          have t2 := h2.dropTo (lt l)
          have u2 := dropTo_end (lt l) (b :: r2)
          refine ⟨_, IsUniqued.prefix (xs := l :: (M ++ b :: r2)) (zs := l :: mergeU lt M (dropTo (lt l) (b :: r2))) h ?_ o1 ?_, ?_⟩
          · have hM' : Sorted lt M := o5.imp fun hab => h.asymm hab
            refine (mergeU_uniqued h hM' (dropTo_sorted hs2)).cons h (by rw [List.find?_cons_of_pos (equiv_self h l)]) ?_ fun x hx => ?_
            · rw [List.filter_cons_of_neg (by simp [h.irrefl l]), List.filter_append, List.filter_eq_self.2 o4, filter_dropTo h l hs2]
            · rcases List.mem_cons.1 hx with rfl | hx
              · exact .inr (equiv_self h x)
              · rcases List.mem_append.1 hx with hx | hx
                · exact .inl (o4 x hx)
                · exact hcov x hx
          · intro k hk x hx
            rcases List.mem_cons.1 hx with rfl | hx
            · exact hKl k hk
            · rcases List.mem_append.1 hx with hx | hx
              · exact o3 k hk x (by simp [hx])
              · exact hKr2 k hk x hx
          · have hseg : Seg (vals m) first (K ++ [l]) := seg_append.2 ⟨k0, seg_cons.2 ⟨k2, seg_nil _ _⟩⟩
            have := mergeThroughTemp_spec (mk := mk) (lt := lt) (tmp := tmp) k3 t2 (middle := first + (a :: r1).length) (by omega) (by omega)
              (last := first + (a :: r1).length + (b :: r2).length) (by omega) (fun a ha ha' => hlive a (by omega) ha')
              (fun i hi => hraw i (by omega)) (by have := htmp (by simp); omega)
            rw [show first + K.length + 1 = first + (K ++ [l]).length by simp [Nat.add_assoc]] at this ⊢
            have := this.prefix hseg
              fun i hi => by simp only [not_and]; omega
            rw [List.append_assoc] at this
            exact this.mono fun a ha => by simp only [InRange, List.length_append, List.length_cons, List.length_nil] at *; omega

/-! ## C44 -/

/-- The objects `xs` from address zero on, and no others. -/
def objs (xs : List α) : Mem (Obj α) := fun a => (xs[a]?).map .val

theorem objs_seg (xs : List α) : Seg (vals (objs xs)) 0 xs := fun i hi => by
  rw [vals_some, objs, Nat.zero_add, List.getElem?_eq_getElem hi]; rfl

/-- `unique` leaves the first element of each run and returns where they end; the other elements of the range are objects still. The
hypothesis on `eq` holds for every equivalence relation. -/
theorem C44_unique {mk : MoveKind} {eq : α → α → Bool} {xs : List α} {m : Mem (Obj α)} {first : Nat} (hx : Seg (vals m) first xs)
    (hr : ∀ a b c, [a, b, c].Sublist xs → eq a b = true → eq a c = eq b c) :
    Writes (unique mk eq m first (first + xs.length)) m first (firstOfRuns eq xs) (InRange first xs.length) := by
  rw [← dedup_runs hr]
  exact unique_spec hx hr

example : Seg (vals (objs [1, 1, 2, 3, 3, 3, 1])) 0 [1, 1, 2, 3, 3, 3, 1] ∧
    (∀ a b c, [a, b, c].Sublist [1, 1, 2, 3, 3, 3, 1] → (a == b) = true → (a == c) = (b == c)) ∧
    firstOfRuns (· == ·) [1, 1, 2, 3, 3, 3, 1] = [1, 2, 3, 1] :=
  ⟨objs_seg _, fun a b c _ h => by rw [beq_iff_eq.1 h], rfl⟩

example : ((unique .clearSelf (· == ·) (objs [1, 1, 2, 3, 3, 3, 1]) 0 7).map fun r => (r.2, (List.range 7).map (vals r.1))) =
    some (4, [some 1, some 2, some 3, some 1, some 3, some 3, none]) := by decide +kernel

/-- `unique_copy` writes the first element of each run to the destination, which may be the start of the range, except for types that
cannot be assigned to themselves. -/
theorem C44_unique_copy {mk : MoveKind} {eq : α → α → Bool} {xs : List α} {m : Mem (Obj α)} {first out : Nat} (hx : Seg (vals m) first xs)
    (hl : ∀ i, i < xs.length → m (out + i) ≠ none) (hd : out + mk.slack ≤ first ∨ first + xs.length ≤ out)
    (hr : ∀ a b c, [a, b, c].Sublist xs → eq a b = true → eq a c = eq b c) :
    Writes (uniqueCopy mk eq m first (first + xs.length) out) m out (firstOfRuns eq xs)
      (fun a => InRange out xs.length a ∨ InRange first xs.length a) := by
  rw [← dedup_runs hr]
  exact uniqueCopy_spec hx hl hd

/-- A copy does not change the range. -/
theorem assignFrom_keep {m m' : Mem (Obj α)} {dst src : Nat} (h : assignFrom .keep m dst src = some m') {a : Nat} (ha : a ≠ dst) : m' a = m a := by
  rw [assignFrom] at h
  split at h
  · cases h; exact upd_other _ _ ha
  · cases h

theorem uniqueCommon_keep {eq : α → α → Bool} : ∀ {k : Nat} {m m' : Mem (Obj α)} {it out e : Nat}, uniqueCommon .keep eq k m it out = some (m', e) →
    ∀ a, (a ≤ out ∨ out + k < a) → m' a = m a
  | 0, m, m', it, out, e, h, a, _ => by simp only [uniqueCommon, Option.some.injEq, Prod.mk.injEq] at h; rw [h.1]
  | k + 1, m, m', it, out, e, h, a, ha => by
    rw [uniqueCommon] at h
    simp only [Option.bind_eq_bind, Option.bind_eq_some_iff] at h
    obtain ⟨o, -, x, -, h⟩ := h
    split at h
    · exact uniqueCommon_keep h a (by omega)
    · simp only [Option.bind_eq_some_iff] at h
      obtain ⟨m1, h1, h2⟩ := h
      rw [uniqueCommon_keep h2 a (by omega), assignFrom_keep h1 (by omega)]

theorem C44_unique_copy_source {eq : α → α → Bool} {xs : List α} {m : Mem (Obj α)} {first out : Nat} (hx : Seg (vals m) first xs)
    (hl : ∀ i, i < xs.length → m (out + i) ≠ none) (hd : out ≤ first ∨ first + xs.length ≤ out)
    (hr : ∀ a b c, [a, b, c].Sublist xs → eq a b = true → eq a c = eq b c) :
    Writes (uniqueCopy .keep eq m first (first + xs.length) out) m out (firstOfRuns eq xs) (InRange out xs.length) := by
  obtain ⟨m', h1, h2, h3, h4⟩ := C44_unique_copy (mk := .keep) hx hl hd hr
  refine ⟨m', h1, h2, fun a ha => ?_, h4⟩
  rw [uniqueCopy] at h1
  split at h1
  · simp only [Option.some.injEq, Prod.mk.injEq] at h1; rw [h1.1]
  · simp only [Option.bind_eq_bind, Option.bind_eq_some_iff] at h1
    obtain ⟨m1, q1, q2⟩ := h1
    simp only [InRange] at ha
    rw [uniqueCommon_keep q2 a (by omega), assignFrom_keep q1 (by omega)]

example : Seg (vals (objs [7, 7, 8, 0, 0, 0])) 0 [7, 7, 8] ∧ (∀ i, i < 3 → objs [7, 7, 8, 0, 0, 0] (3 + i) ≠ none) :=
  ⟨(seg_append (xs := [7, 7, 8]).1 (objs_seg [7, 7, 8, 0, 0, 0])).1, by decide⟩

/-- On a sorted range `unique_less` leaves one element, the first, for each group of equivalent ones. -/
theorem C44_unique_less {mk : MoveKind} {lt : α → α → Bool} (h : StrictWeak lt) {xs : List α} (hs : Sorted lt xs) {m : Mem (Obj α)} {first : Nat}
    (hx : Seg (vals m) first xs) :
    ∃ zs, IsUniqued lt xs zs ∧ Writes (uniqueLess mk lt m first (first + xs.length)) m first zs (InRange first xs.length) :=
  ⟨_, dedup_uniqued h hs, unique_spec hx (sorted_runs h hs)⟩

example : IsUniqued (fun a b : Nat × Nat => a.1 < b.1) [(1, 0), (1, 1), (2, 0)] [(1, 0), (2, 0)] := by
  refine ⟨by decide, by decide, by decide⟩

/-- `unique_merge_copy` of two sorted ranges writes one element for each group of equivalent elements of both, the first one of the first range
that has one. The elements of the first range may not overlap the destination; those of the second one may follow it. -/
theorem C44_unique_merge_copy {mk : MoveKind} {lt : α → α → Bool} (h : StrictWeak lt) {r1 r2 : List α} (hs1 : Sorted lt r1) (hs2 : Sorted lt r2)
    {m : Mem (Obj α)} {first1 first2 out : Nat} (h1 : Seg (vals m) first1 r1) (h2 : Seg (vals m) first2 r2)
    (hl : ∀ i, i < r1.length + r2.length → m (out + i) ≠ none) (hd1 : out + r1.length + r2.length ≤ first1 ∨ first1 + r1.length ≤ out)
    (hd2 : first1 + r1.length ≤ first2 ∨ first2 + r2.length ≤ first1) (hd3 : out + r1.length + mk.slack ≤ first2 ∨ first2 + r2.length ≤ out) :
    ∃ zs, IsUniqued lt (r1 ++ r2) zs ∧
      Writes (uniqueMergeCopy mk lt (r1.length + r2.length + 1) m first1 (first1 + r1.length) first2 (first2 + r2.length) out) m out zs
        (fun a => InRange out (r1.length + r2.length) a ∨ InRange first1 r1.length a ∨ InRange first2 r2.length a) :=
  ⟨_, mergeU_uniqued h hs1 hs2, uniqueMergeCopy_spec (by omega) h1 h2 hl hd1 hd2 hd3⟩

/-- `unique_inplace_merge`, if assigning an element to itself has no effect. Neither of its assertions fails. Missing: types for
which that is not so, see `C44_self_move_violated`. -/
theorem C44_unique_inplace_merge_partial {mk : MoveKind} {lt : α → α → Bool} (h : StrictWeak lt) (hk : mk ≠ .clearSelf) {m : Mem (Obj α)}
    {r1 r2 : List α} {first tmp : Nat} (h1 : Seg (vals m) first r1) (h2 : Seg (vals m) (first + r1.length) r2)
    (hs1 : r1.Pairwise fun a b => lt a b = true) (hs2 : Sorted lt r2) (hraw : Raw m tmp r1.length) :
    ∃ zs, IsUniqued lt (r1 ++ r2) zs ∧
      Writes (uniqueInplaceMerge mk lt tmp m first (first + r1.length) (first + r1.length + r2.length)) m first zs
        (InRange first (r1.length + r2.length)) :=
  uniqueInplaceMerge_spec h hk h1 h2 hs1 hs2 hraw

example : Seg (vals (objs [1, 3, 5, 3, 8])) 0 [1, 3, 5] ∧ Seg (vals (objs [1, 3, 5, 3, 8])) (0 + [1, 3, 5].length) [3, 8] ∧
    ([1, 3, 5].Pairwise fun a b => decide (a < b) = true) ∧ Sorted (fun a b => decide (a < b)) [3, 8] ∧ Raw (objs [1, 3, 5, 3, 8]) 100 3 :=
  ⟨(seg_append (xs := [1, 3, 5]).1 (objs_seg [1, 3, 5, 3, 8])).1, (seg_append (xs := [1, 3, 5]).1 (objs_seg [1, 3, 5, 3, 8])).2,
    by decide, by unfold Sorted; decide, fun i _ => by rw [objs, List.getElem?_eq_none (by simp; omega)]; rfl⟩

/-- What happens to `unique_inplace_merge` of `r1` and `r2` at address zero: where the result ends and what is there. -/
def inplaceMergeResult (mk : MoveKind) (r1 r2 : List Nat) : Option (Nat × List (Option Nat)) :=
  (uniqueInplaceMerge mk (fun a b => decide (a < b)) 100 (objs (r1 ++ r2)) 0 r1.length (r1.length + r2.length)).map
    fun r => (r.2, (List.range r.2).map (vals r.1))

example : inplaceMergeResult .clear [1, 3, 5, 7] [2, 3, 3, 8] = some (6, [some 1, some 2, some 3, some 5, some 7, some 8]) := by decide +kernel
example : inplaceMergeResult .clear [2, 3] [1, 3, 4] = some (4, [some 1, some 2, some 3, some 4]) := by decide +kernel
example : inplaceMergeResult .clear [1, 2] [2, 3, 4] = some (4, [some 1, some 2, some 3, some 4]) := by decide +kernel

/-- If nothing is removed, the tail of the second range stays in its place, and every element of it is move assigned to itself. Types that
lose their value by that, such as `std::vector`, lose it: the union of `{2}` and `{1, 3}` contains a moved-from element. -/
theorem C44_self_move_violated : ∃ (r1 r2 : List Nat) (m : Mem (Obj Nat)) (tmp : Nat), Seg (vals m) 0 r1 ∧ Seg (vals m) r1.length r2 ∧
    (r1.Pairwise fun a b => a < b) ∧ (r2.Pairwise fun a b => a < b) ∧ Raw m tmp r1.length ∧
    ∃ m', uniqueInplaceMerge .clearSelf (fun a b => decide (a < b)) tmp m 0 r1.length (r1.length + r2.length) = some (m', 3) ∧
      vals m' 0 = some 1 ∧ vals m' 1 = some 2 ∧ vals m' 2 = none := by
  refine ⟨[2], [1, 3], objs [2, 1, 3], 100, ?_, ?_, by decide, by decide, ?_, ?_⟩
  · exact (seg_append (xs := [2]).1 (objs_seg [2, 1, 3])).1
  · exact (seg_append (xs := [2]).1 (objs_seg [2, 1, 3])).2
  · intro i hi
    rw [objs, List.getElem?_eq_none (by simp; omega)]; rfl
  · obtain ⟨⟨m', e⟩, hm⟩ := Option.isSome_iff_exists.1
      (show (uniqueInplaceMerge .clearSelf (fun a b => decide (a < b)) 100 (objs [2, 1, 3]) 0 1 3).isSome = true by decide +kernel)
    have key := (by decide +kernel : (uniqueInplaceMerge .clearSelf (fun a b => decide (a < b)) 100 (objs [2, 1, 3]) 0 1 3).map
      (fun r => (r.2, vals r.1 0, vals r.1 1, vals r.1 2)) = some (3, some 1, some 2, none))
    rw [hm] at key
    simp only [Option.map_some, Option.some.injEq, Prod.mk.injEq] at key
    obtain ⟨rfl, hk⟩ := key
    exact ⟨m', hm, hk⟩

end Verif.Algo
