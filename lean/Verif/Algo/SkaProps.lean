import Verif.Algo.SkaBytes
import Verif.Algo.Merge

/-!
# ska_sort sorts (C42)
-/

namespace Verif.Algo

variable {α : Type}

/-! ## What a part of the sort guarantees -/

/-- `g` permutes ranges whose elements are pairwise related by `R`; they end up sorted by `full` unless some
part was left early, which does not happen if `T` holds of the elements. -/
def SortsOk (full : α → α → Bool) (T : List α → Prop) (R : α → α → Prop) (g : Sorter α) : Prop :=
  ∀ (m : Mem α) (first : Nat) (xs : List α), m.Seg first xs → (∀ x ∈ xs, ∀ y ∈ xs, R x y) →
    ∃ m' ys e, g m first xs.length = some (m', e) ∧ m'.Seg first ys ∧ ys.Perm xs ∧ (e = false → Sorted full ys) ∧ (T xs → e = false) ∧
      m.SameOff m' (InRange first xs.length)

/-- The same for the rest of a sort; without a rest the elements have to be equivalent. -/
def NextOk (full : α → α → Bool) (T : List α → Prop) (R : α → α → Prop) : Option (Sorter α) → Prop
  | none => ∀ x y, R x y → full x y = false
  | some g => SortsOk full T R g

theorem SortsOk.mono {full : α → α → Bool} {T : List α → Prop} {R R' : α → α → Prop} {g : Sorter α} (h : SortsOk full T R g) (hR : ∀ x y, R' x y → R x y) : SortsOk full T R' g :=
  fun m first xs hs hxs => h m first xs hs fun x hx y hy => hR x y (hxs x hx y hy)

theorem sorted_of_equiv {full : α → α → Bool} {xs : List α} (h : ∀ x ∈ xs, ∀ y ∈ xs, full x y = false) : Sorted full xs :=
  List.pairwise_iff_forall_sublist.2 fun {a b} hab => h b (hab.subset (by simp)) a (hab.subset (by simp))

theorem sorted_short {full : α → α → Bool} {xs : List α} (h : xs.length ≤ 1) : Sorted full xs := by
  match xs, h with
  | [], _ => exact List.Pairwise.nil
  | [x], _ => exact List.pairwise_singleton _ _

theorem NextOk.run {full : α → α → Bool} {T : List α → Prop} {R : α → α → Prop} {next : Option (Sorter α)} (h : NextOk full T R next) : SortsOk full T R (runNext next) := by
  cases next with
  | none =>
    intro m first xs hs hxs
    exact ⟨m, xs, false, rfl, hs, List.Perm.refl _, fun _ => sorted_of_equiv fun x hx y hy => h x y (hxs x hx y hy), fun _ => rfl, fun _ _ => rfl⟩
  | some g => exact h

/-- Running a sort only on ranges of more than one element. -/
theorem SortsOk.guarded {full : α → α → Bool} {T : List α → Prop} {R : α → α → Prop} {g : Sorter α} (h : SortsOk full T R g) {m : Mem α} {first n : Nat} {xs : List α}
    (hs : m.Seg first xs) (hn : n = xs.length) (hxs : ∀ x ∈ xs, ∀ y ∈ xs, R x y) :
    ∃ m' ys e, sortMany g m first n = some (m', e) ∧ m'.Seg first ys ∧ ys.Perm xs ∧ (e = false → Sorted full ys) ∧ (T xs → e = false) ∧
      m.SameOff m' (InRange first xs.length) := by
  subst hn
  rw [sortMany]
  by_cases h1 : xs.length > 1
  · rw [if_pos h1]; exact h m first xs hs hxs
  · rw [if_neg h1]
    exact ⟨m, xs, false, rfl, hs, List.Perm.refl _, fun _ => sorted_short (by omega), fun _ => rfl, fun _ _ => rfl⟩

/-! ## Sorting the blocks -/

section
variable {dg : α → Nat} {xs : List α} {ps : Parts}

/-- The contents of the blocks, one after the other. -/
theorem blocks_seg {m : Mem α} {first : Nat} {S : Nat → Nat} {B : Nat → List α} (h0 : S 0 = 0) : ∀ D, (∀ d, d < D → S d + (B d).length = S (d + 1)) → (∀ d, d < D → m.Seg (first + S d) (B d)) →
    m.Seg first ((List.range D).flatMap B) ∧ ((List.range D).flatMap B).length = S D
  | 0, _, _ => ⟨Mem.seg_nil _ _, by simp [h0]⟩
  | D + 1, hl, hs => by
    obtain ⟨h1, h2⟩ := blocks_seg h0 D (fun d hd => hl d (by omega)) fun d hd => hs d (by omega)
    rw [List.range_succ, List.flatMap_append, List.flatMap_cons, List.flatMap_nil, List.append_nil, Mem.seg_append, List.length_append, h2]
    exact ⟨⟨h1, hs D (by omega)⟩, hl D (by omega)⟩

theorem flatMap_perm {B B' : Nat → List α} : ∀ D, (∀ d, d < D → (B' d).Perm (B d)) → ((List.range D).flatMap B').Perm ((List.range D).flatMap B)
  | 0, _ => List.Perm.refl _
  | D + 1, h => by
    rw [List.range_succ, List.flatMap_append, List.flatMap_append]
    refine (flatMap_perm D fun d hd => h d (by omega)).append ?_
    simpa using h D (by omega)

theorem flatMap_sorted {full : α → α → Bool} {B : Nat → List α} : ∀ D, (∀ d, d < D → Sorted full (B d)) →
    (∀ d e, d < e → e < D → ∀ x ∈ B d, ∀ y ∈ B e, full y x = false) → Sorted full ((List.range D).flatMap B)
  | 0, _, _ => List.Pairwise.nil
  | D + 1, h1, h2 => by
    rw [List.range_succ, List.flatMap_append, sorted_append]
    refine ⟨flatMap_sorted D (fun d hd => h1 d (by omega)) fun d e hde he => h2 d e hde (by omega), by simpa using h1 D (by omega), ?_⟩
    intro x hx y hy
    simp only [List.flatMap_cons, List.flatMap_nil, List.append_nil] at hy
    obtain ⟨d, hd, hxd⟩ := List.mem_flatMap.1 hx
    exact h2 d D (by simpa using hd) (by omega) x hxd y hy

/-- The elements of one block. -/
def blockOf (dg : α → Nat) (xs ys : List α) (d : Nat) : List α := (ys.drop (startOf dg xs d)).take (startOf dg xs (d + 1) - startOf dg xs d)

theorem blockOf_length {ys : List α} (hp : ys.length = xs.length) (d : Nat) : startOf dg xs d + (blockOf dg xs ys d).length = startOf dg xs (d + 1) := by
  rw [blockOf, List.length_take, List.length_drop]
  have := startOf_le dg xs (d + 1)
  have := startOf_mono dg xs (show d ≤ d + 1 by omega)
  omega

theorem blockOf_get {ys : List α} {d i : Nat} (h : i < startOf dg xs (d + 1) - startOf dg xs d) : (blockOf dg xs ys d)[i]? = ys[startOf dg xs d + i]? := by
  rw [blockOf, List.getElem?_take_of_lt h, List.getElem?_drop]

theorem blockOf_seg {m : Mem α} {first : Nat} {ys : List α} (hs : m.Seg first ys) (hp : ys.length = xs.length) (d : Nat) : m.Seg (first + startOf dg xs d) (blockOf dg xs ys d) := by
  intro i hi
  have hl := blockOf_length (dg := dg) hp d
  have := startOf_le dg xs (d + 1)
  have hg := blockOf_get (dg := dg) (xs := xs) (ys := ys) (d := d) (i := i) (by omega)
  rw [List.getElem?_eq_getElem hi] at hg
  rw [Nat.add_assoc, hs.get (by omega), hg]

theorem blockOf_class {ys : List α} (hf : AllFull dg xs ys) (hp : ys.length = xs.length) {d : Nat} (hd : d < 256) : ∀ x ∈ blockOf dg xs ys d, dg x = d := by
  intro x hx
  obtain ⟨i, hi⟩ := List.mem_iff_getElem?.1 hx
  have hl := blockOf_length (dg := dg) hp d
  have hil : i < (blockOf dg xs ys d).length := (List.getElem?_eq_some_iff.1 hi).1
  rw [blockOf_get (by omega)] at hi
  exact hf d hd _ x (by omega) (by omega) hi

theorem blockOf_flatMap {ys : List α} (hd : ∀ x ∈ xs, dg x < 256) (hp : ys.Perm xs) : (List.range 256).flatMap (blockOf dg xs ys) = ys := by
  have h0 : startOf dg xs 0 = 0 := by simp [startOf]
  have hs : Mem.Seg (fun i => ys[i]?) 0 ys := fun i hi => by rw [Nat.zero_add]; exact List.getElem?_eq_getElem hi
  obtain ⟨h1, h2⟩ := blocks_seg (m := fun i => ys[i]?) (first := 0) h0 256 (fun d _ => blockOf_length (dg := dg) hp.length_eq d) fun d _ => blockOf_seg hs hp.length_eq d
  rw [startOf_all hd, ← hp.length_eq] at h2
  apply List.ext_getElem?
  intro i
  rcases Nat.lt_or_ge i ys.length with h | h
  · have := h1 i (by omega)
    rw [Nat.zero_add] at this
    rw [List.getElem?_eq_getElem (by omega), ← this]
  · rw [List.getElem?_eq_none h, List.getElem?_eq_none (by omega)]

theorem startOf_mem {d : Nat} (h : startOf dg xs d < startOf dg xs (d + 1)) : ∃ x ∈ xs, dg x = d := by
  have := startOf_succ dg xs d
  obtain ⟨x, hx⟩ := List.exists_mem_of_length_pos (show 0 < (xs.filter fun x => decide (dg x = d)).length by omega)
  rw [List.mem_filter, decide_eq_true_eq] at hx
  exact ⟨x, hx⟩

theorem startOf_lt {x : α} (h : x ∈ xs) : startOf dg xs (dg x) < startOf dg xs (dg x + 1) := by
  have h1 := startOf_succ dg xs (dg x)
  have h2 := List.length_pos_of_mem (List.mem_filter.2 ⟨h, decide_eq_true (p := dg x = dg x) rfl⟩ : x ∈ xs.filter fun y => decide (dg y = dg x))
  omega

/-- A block has the elements of its class. -/
theorem blockOf_perm {ys : List α} (hf : AllFull dg xs ys) (hp : ys.Perm xs) {d : Nat} (hd : d < 256) : (blockOf dg xs ys d).Perm (xs.filter fun x => decide (dg x = d)) := by
  have hsub : List.Sublist (blockOf dg xs ys d) ys := (List.take_sublist _ _).trans (List.drop_sublist _ _)
  have hself : (blockOf dg xs ys d).filter (fun x => decide (dg x = d)) = blockOf dg xs ys d :=
    List.filter_eq_self.2 fun x hx => by simpa using blockOf_class hf hp.length_eq hd x hx
  have hfs := hsub.filter fun x => decide (dg x = d)
  rw [hself] at hfs
  have hpf : (ys.filter fun x => decide (dg x = d)).Perm (xs.filter fun x => decide (dg x = d)) := hp.filter _
  have hl : (blockOf dg xs ys d).length = (ys.filter fun x => decide (dg x = d)).length := by
    have h1 := blockOf_length (dg := dg) hp.length_eq d
    have h2 := startOf_succ dg xs d
    rw [hpf.length_eq]
    omega
  rw [hfs.eq_of_length hl]
  exact hpf

/-- The state of a pass over the blocks. -/
structure BlocksAt (S : Nat → Nat) (m : Mem α) (first : Nat) (B : Nat → List α) : Prop where
  len : ∀ d, d < 256 → S d + (B d).length = S (d + 1)
  seg : ∀ d, d < 256 → m.Seg (first + S d) (B d)

theorem BlocksAt.replace {S : Nat → Nat} (hS : ∀ d e, d ≤ e → S d ≤ S e) {m m' : Mem α} {first d : Nat} {B : Nat → List α} (h : BlocksAt S m first B) (hd : d < 256) {ys : List α}
    (hs : m'.Seg (first + S d) ys) (hp : ys.Perm (B d)) (hf : m.SameOff m' (InRange (first + S d) (B d).length)) : BlocksAt S m' first (upd B d ys) := by
  have hl := h.len d hd
  constructor
  · intro e he
    by_cases hed : e = d
    · subst hed; rw [upd_same, hp.length_eq]; exact h.len e he
    · rw [upd_other _ _ hed]; exact h.len e he
  · intro e he
    by_cases hed : e = d
    · subst hed; rw [upd_same]; exact hs
    · rw [upd_other _ _ hed]
      have hle := h.len e he
      refine (h.seg e he).frame hf fun i hi => ?_
      intro hc
      simp only [InRange] at hc
      rcases Nat.lt_or_gt_of_ne hed with h' | h'
      · have := hS (e + 1) d (by omega); omega
      · have := hS (d + 1) e (by omega); omega

/-- What sorting the blocks `ds` does. -/
def BlocksOk (full : α → α → Bool) (T : List α → Prop) (S : Nat → Nat) (ds : List Nat) (m : Mem α) (first : Nat) (B : Nat → List α) (r : Option (Mem α × Bool)) : Prop :=
  ∃ m' B' e, r = some (m', e) ∧ BlocksAt S m' first B' ∧ (∀ d, d < 256 → (B' d).Perm (B d)) ∧ (∀ d, d ∉ ds → B' d = B d) ∧
    (e = false → ∀ d ∈ ds, Sorted full (B' d)) ∧ ((∀ d ∈ ds, T (B d)) → e = false) ∧ m.SameOff m' (InRange first (S 256))

theorem BlocksOk.step {full : α → α → Bool} {T : List α → Prop} {R : α → α → Prop} {rec : Sorter α} (hrec : SortsOk full T R rec) {S : Nat → Nat} (hS : ∀ d e, d ≤ e → S d ≤ S e)
    {d : Nat} {ds : List Nat} (hd : d < 256) (hnd : d ∉ ds) {m : Mem α} {first n : Nat} {B : Nat → List α} (h : BlocksAt S m first B) (hR : ∀ x ∈ B d, ∀ y ∈ B d, R x y)
    (hn : n = S (d + 1) - S d) {k : Mem α → Option (Mem α × Bool)} (hk : ∀ m' ys, ys.Perm (B d) → BlocksAt S m' first (upd B d ys) → BlocksOk full T S ds m' first (upd B d ys) (k m')) :
    BlocksOk full T S (d :: ds) m first B (do
      let (m, e) ← sortMany rec m (first + S d) n
      let (m, e') ← k m
      some (m, e || e')) := by
  have hl := h.len d hd
  obtain ⟨m1, ys, e, e1, s1, p1, so1, t1, f1⟩ := hrec.guarded (n := n) (h.seg d hd) (by omega) hR
  obtain ⟨m2, B', e', e2, b2, p2, o2, so2, t2, f2⟩ := hk m1 ys p1 (h.replace hS hd s1 p1 f1)
  refine ⟨m2, B', e || e', ?_, b2, ?_, ?_, ?_, ?_, ?_⟩
  · rw [e1]; simp only [Option.bind_eq_bind, Option.bind_some]; rw [e2]; rfl
  · intro c hc
    refine (p2 c hc).trans ?_
    by_cases hcd : c = d
    · subst hcd; rw [upd_same]; exact p1
    · rw [upd_other _ _ hcd]
  · intro c hc
    rw [List.mem_cons, not_or] at hc
    rw [o2 c hc.2, upd_other _ _ hc.1]
  · intro he c hc
    rw [Bool.or_eq_false_iff] at he
    by_cases hcs : c ∈ ds
    · exact so2 he.2 c hcs
    · have hcd : c = d := by simpa [hcs] using hc
      subst hcd
      rw [o2 c hcs, upd_same]; exact so1 he.1
  · intro hT
    rw [t1 (hT d (by simp)), t2 fun c hc => ?_]
    · rfl
    · have hcd : c ≠ d := fun h => hnd (h ▸ hc)
      rw [upd_other _ _ hcd]; exact hT c (by simp [hc])
  · refine Mem.SameOff.trans (f1.mono fun x hx => ?_) f2
    simp only [InRange] at hx ⊢
    have := hS (d + 1) 256 (by omega)
    omega

theorem perm_all {R : α → α → Prop} {xs ys : List α} (hp : ys.Perm xs) (h : ∀ x ∈ xs, ∀ y ∈ xs, R x y) : ∀ x ∈ ys, ∀ y ∈ ys, R x y :=
  fun x hx y hy => h x (hp.mem_iff.1 hx) y (hp.mem_iff.1 hy)

/-- Changing one block keeps what is known of all blocks. -/
theorem upd_all {P : Nat → List α → Prop} (hP : ∀ d l l', List.Perm l' l → P d l → P d l') {B : Nat → List α} {d : Nat} {ys : List α} (hp : ys.Perm (B d)) (h : ∀ e, P e (B e)) :
    ∀ e, P e (upd B d ys e) := by
  intro e
  by_cases he : e = d
  · subst he; rw [upd_same]; exact hP _ _ _ hp (h e)
  · rw [upd_other _ _ he]; exact h e

theorem skaRecurse_spec {full : α → α → Bool} {T : List α → Prop} {R : α → α → Prop} {rec : Sorter α} (hrec : SortsOk full T R rec) (hps : PartsOf dg xs ps) {first : Nat} :
    ∀ {ds : List Nat} {m : Mem α} {B : Nat → List α}, ds.Nodup → (∀ d ∈ ds, d < 256) → BlocksAt (startOf dg xs) m first B → (∀ d, ∀ x ∈ B d, ∀ y ∈ B d, R x y) →
      BlocksOk full T (startOf dg xs) ds m first B (skaRecurse rec ps first ds m)
  | [], m, B, _, _, hB, _ => ⟨m, B, false, rfl, hB, fun _ _ => List.Perm.refl _, fun _ _ => rfl, fun _ d hd => by simp at hd, fun _ => rfl, fun _ _ => rfl⟩
  | d :: ds, m, B, hn, hlt, hB, hR => by
    have hd := hlt d (by simp)
    have hstart : (if d = 0 then 0 else ps.next (d - 1)) = startOf dg xs d := by
      split
      · rename_i h0; subst h0; simp [startOf]
      · rw [hps.next (d - 1) (by omega)]; congr 1; omega
    rw [skaRecurse]
    simp only [hstart, hps.next d hd]
    rw [List.nodup_cons] at hn
    exact BlocksOk.step hrec (fun a b h => startOf_mono dg xs h) hd hn.1 hB (hR d) rfl fun m' ys hp hB' =>
      skaRecurse_spec hrec hps hn.2 (fun e he => hlt e (by simp [he])) hB' (upd_all (P := fun _ l => ∀ x ∈ l, ∀ y ∈ l, R x y) (fun _ _ _ hp h => perm_all hp h) hp hR)

theorem flagRecurse_spec {full : α → α → Bool} {T : List α → Prop} {R : α → α → Prop} {rec : Sorter α} (hrec : SortsOk full T R rec) (hps : PartsOf dg xs ps) {first : Nat} :
    ∀ {ds : List Nat} {m : Mem α} {B : Nat → List α} {a : Nat}, ds.Pairwise (· < ·) → (∀ d ∈ ds, d < 256 ∧ a ≤ d) → (∀ d, a ≤ d → d < 256 → d ∉ ds → startOf dg xs d = startOf dg xs (d + 1)) →
      BlocksAt (startOf dg xs) m first B → (∀ d, ∀ x ∈ B d, ∀ y ∈ B d, R x y) →
      BlocksOk full T (startOf dg xs) ds m first B (flagRecurse rec ps first ds (first + startOf dg xs a) m)
  | [], m, B, a, _, _, _, hB, _ => ⟨m, B, false, rfl, hB, fun _ _ => List.Perm.refl _, fun _ _ => rfl, fun _ d hd => by simp at hd, fun _ => rfl, fun _ _ => rfl⟩
  | d :: ds, m, B, a, hi, hlt, hno, hB, hR => by
    obtain ⟨hd, had⟩ := hlt d (by simp)
    rw [List.pairwise_cons] at hi
    have hsame : ∀ k, a + k ≤ d → startOf dg xs (a + k) = startOf dg xs a := by
      intro k
      induction k with
      | zero => intro _; rfl
      | succ k ih =>
        intro hk
        have hnot : a + k ∉ d :: ds := by
          rw [List.mem_cons, not_or]
          refine ⟨by omega, fun hm => ?_⟩
          have := hi.1 _ hm; omega
        rw [← ih (by omega)]
        exact (hno (a + k) (by omega) (by omega) hnot).symm
    have hSa : startOf dg xs a = startOf dg xs d := by
      have := hsame (d - a) (by omega)
      rw [show a + (d - a) = d by omega] at this
      exact this.symm
    rw [flagRecurse, hSa]
    simp only [hps.next d hd]
    have hsub : first + startOf dg xs (d + 1) - (first + startOf dg xs d) = startOf dg xs (d + 1) - startOf dg xs d := by omega
    rw [hsub]
    refine BlocksOk.step hrec (fun a b h => startOf_mono dg xs h) hd (fun hm => by have := hi.1 _ hm; omega) hB (hR d) rfl fun m' ys hp hB' => ?_
    refine flagRecurse_spec hrec hps (a := d + 1) hi.2 (fun e he => ⟨(hlt e (by simp [he])).1, hi.1 e he⟩) (fun e h1 h2 h3 => hno e (by omega) h2 ?_) hB'
      (upd_all (P := fun _ l => ∀ x ∈ l, ∀ y ∈ l, R x y) (fun _ _ _ hp h => perm_all hp h) hp hR)
    rw [List.mem_cons, not_or]
    exact ⟨by omega, h3⟩

/-- Sorted blocks, in order, are a sorted range. -/
theorem BlocksOk.finish {full : α → α → Bool} {T : List α → Prop} {R : α → α → Prop} {ys : List α} {ds : List Nat} {m : Mem α} {first : Nat} {r : Option (Mem α × Bool)}
    (hd : ∀ x ∈ xs, dg x < 256) (hp : ys.Perm xs) (hf : AllFull dg xs ys) (hxs : ∀ x ∈ xs, ∀ y ∈ xs, R x y) (hcross : ∀ x y, R x y → dg x < dg y → full y x = false)
    (hds : ∀ d, d < 256 → d ∉ ds → startOf dg xs d = startOf dg xs (d + 1)) (hds' : ∀ d ∈ ds, d < 256) (h : BlocksOk full T (startOf dg xs) ds m first (blockOf dg xs ys) r) :
    ∃ m' zs e, r = some (m', e) ∧ m'.Seg first zs ∧ zs.Perm xs ∧ (e = false → Sorted full zs) ∧
      ((∀ d, d < 256 → ∀ l, l.Perm (xs.filter fun x => decide (dg x = d)) → T l) → e = false) ∧ m.SameOff m' (InRange first xs.length) := by
  obtain ⟨m', B', e, hr, hB, hperm, -, hso, ht, hfr⟩ := h
  have h0 : startOf dg xs 0 = 0 := by simp [startOf]
  have hzp : ((List.range 256).flatMap B').Perm ys := by
    have := flatMap_perm 256 hperm
    rwa [blockOf_flatMap hd hp] at this
  have hcls : ∀ d, d < 256 → ∀ x ∈ B' d, dg x = d := fun d hd256 x hx => blockOf_class hf hp.length_eq hd256 x ((hperm d hd256).mem_iff.1 hx)
  refine ⟨m', (List.range 256).flatMap B', e, hr, (blocks_seg h0 256 hB.len hB.seg).1, hzp.trans hp, fun he => ?_, fun hT => ht fun d hdm => hT d (hds' d hdm) _ (blockOf_perm hf hp (hds' d hdm)), ?_⟩
  · refine flatMap_sorted 256 (fun d hd256 => ?_) fun d e' hde he' x hx y hy => ?_
    · by_cases hin : d ∈ ds
      · exact hso he d hin
      · have h1 := hB.len d hd256
        have h2 := hds d hd256 hin
        exact sorted_short (by omega)
    · have hmem : ∀ d, d < 256 → ∀ z ∈ B' d, z ∈ xs := fun d hd z hz =>
        (hzp.trans hp).mem_iff.1 (List.mem_flatMap.2 ⟨d, List.mem_range.2 hd, hz⟩)
      refine hcross x y (hxs x (hmem d (by omega) x hx) y (hmem e' he' y hy)) ?_
      rw [hcls d (by omega) x hx, hcls e' he' y hy]; exact hde
  · rwa [startOf_all hd] at hfr

/-- The result of one byte: unless it was left early, everything is sorted. -/
theorem americanFlagSort_spec {full : α → α → Bool} {T : List α → Prop} {R : α → α → Prop} {rec : Sorter α} {done : Bool} (hd : ∀ x, dg x < 256)
    (hrec : SortsOk full T (fun x y => R x y ∧ dg x = dg y) rec) (hcross : ∀ x y, R x y → dg x < dg y → full y x = false)
    (hdone : done = true → ∀ x y, R x y → dg x = dg y → full x y = false) {m : Mem α} {first : Nat} (hs : m.Seg first xs) (hxs : ∀ x ∈ xs, ∀ y ∈ xs, R x y) :
    ∃ m' ys e, americanFlagSort dg done rec m first xs.length = some (m', e) ∧ m'.Seg first ys ∧ ys.Perm xs ∧ (e = false → Sorted full ys) ∧
      (done = true → rec = runNext none → e = false) ∧
      ((done = true ∨ (∀ x ∈ xs, ∀ y ∈ xs, dg x = dg y) ∨
          ∀ m1, (do let ps ← partitionCounts dg m first xs.length; flagMove dg ps m first xs.length) ≠ some (m1, true)) → (∀ d, d < 256 → ∀ l, l.Perm (xs.filter fun x => decide (dg x = d)) → T l) → e = false) ∧
      ((∃ x ∈ xs, ∃ y ∈ xs, dg x ≠ dg y) → (∀ x ∈ xs, (∀ y ∈ xs, dg y ≤ dg x) → 2 ≤ (xs.filter fun y => decide (dg y = dg x)).length) →
        ∃ m1, (do let ps ← partitionCounts dg m first xs.length; flagMove dg ps m first xs.length) = some (m1, true)) ∧ m.SameOff m' (InRange first xs.length) := by
  obtain ⟨ps, e0, hps⟩ := partitionCounts_spec (dg := dg) hs
  have hd' : ∀ x ∈ xs, dg x < 256 := fun x _ => hd x
  rw [americanFlagSort, e0]
  simp only [Option.bind_eq_bind, Option.bind_some]
  have h1 : ∃ m1 ys early, flagMove dg ps m first xs.length = some (m1, early) ∧
      m1.Seg first ys ∧ ys.Perm xs ∧ AllFull dg xs ys ∧ ((∀ x ∈ xs, ∀ y ∈ xs, dg x = dg y) → early = false) ∧
      ((∃ x ∈ xs, ∃ y ∈ xs, dg x ≠ dg y) → (∀ x ∈ xs, (∀ y ∈ xs, dg y ≤ dg x) → 2 ≤ (xs.filter fun y => decide (dg y = dg x)).length) → early = true) ∧
      m.SameOff m1 (InRange first xs.length) := by
    rw [flagMove]
    by_cases hlen : ps.remaining.length > 1
    · rw [if_pos hlen]
      obtain ⟨cur, hcur⟩ : ∃ c, ps.remaining[0]? = some c := ⟨_, List.getElem?_eq_getElem (by omega)⟩
      have hcm := hps.mem.1 (hps.get_mem hcur)
      have hempty : ∀ d, d < cur → startOf dg xs (d + 1) = startOf dg xs d := by
        intro d hdc
        have hno : d ∉ ps.remaining := by
          intro hm
          obtain ⟨j, hj⟩ := List.mem_iff_getElem?.1 hm
          have := (hps.get_lt_iff hj hcur).1 hdc
          omega
        rw [hps.mem] at hno
        have := startOf_mono dg xs (show d ≤ d + 1 by omega)
        omega
      have hc0 : ∀ k, k ≤ cur → startOf dg xs k = 0 := by
        intro k
        induction k with
        | zero => intro _; simp [startOf]
        | succ k ih => intro hk; rw [hempty k (by omega), ih (by omega)]
      have heff : ∀ d, d < 256 → startOf dg xs d = effOf dg xs ps.offset cur 0 d := by
        intro d hd256
        rcases Nat.lt_trichotomy d cur with h | h | h
        · rw [effOf_lt h, hempty d h]
        · subst h; rw [effOf_eq]; exact hc0 d (Nat.le_refl _)
        · rw [effOf_gt h, hps.offset d hd256]
      have := flagLoop_spec (ps := ps) hd' hps (first := first) (xs.length + 1) (offset := ps.offset) (ci := 0) (it := 0) (cur := cur) hs hcur (by omega) (Settled.start.congr heff)
        (by have := hc0 cur (Nat.le_refl _); omega) (by rw [← gap_congr 256 heff, gap_start, startOf_all hd']; omega)
      rw [Nat.add_zero] at this
      obtain ⟨m1, ys, early, a1, a2, a3, a4, a5, a6⟩ := this
      obtain ⟨nxt, hnxt⟩ : ∃ c, ps.remaining[1]? = some c := ⟨_, List.getElem?_eq_getElem (by omega)⟩
      obtain ⟨x0, hx0, hd0⟩ := startOf_mem hcm.2
      obtain ⟨x1, hx1, hd1⟩ := startOf_mem (hps.mem.1 (hps.get_mem hnxt)).2
      have h01 := hps.get_lt hcur hnxt (by omega)
      refine ⟨m1, ys, early, a1, a2, a3, a4, fun hall => ?_, fun _ hmany => ?_, a6⟩
      · have := hall x0 hx0 x1 hx1; omega
      · obtain ⟨last, hlast⟩ : ∃ e, ps.remaining[ps.remaining.length - 1]? = some e := ⟨_, List.getElem?_eq_getElem (by omega)⟩
        refine a5 last hlast ?_
        obtain ⟨xl, hxl, hdl⟩ := startOf_mem (hps.mem.1 (hps.get_mem hlast)).2
        have h2 := hmany xl hxl fun y hy => by
          obtain ⟨j, hj⟩ := List.mem_iff_getElem?.1 (hps.mem.2 ⟨hd y, startOf_lt hy⟩)
          have hjl : j < ps.remaining.length := (List.getElem?_eq_some_iff.1 hj).1
          by_contra hlt
          have := (hps.get_lt_iff hlast hj).1 (by omega)
          omega
        have h3 := startOf_succ dg xs last
        have h4 := startOf_le dg xs (last + 1)
        rw [hdl] at h2
        omega
    · rw [if_neg hlen]
      refine ⟨m, xs, false, rfl, hs, List.Perm.refl _, ?_, fun _ => rfl, fun hne _ => ?_, fun _ _ => rfl⟩
      swap
      · obtain ⟨x, hx, y, hy, hxy⟩ := hne
        obtain ⟨i, hi⟩ := List.mem_iff_getElem?.1 (hps.mem.2 ⟨hd x, startOf_lt hx⟩)
        obtain ⟨j, hj⟩ := List.mem_iff_getElem?.1 (hps.mem.2 ⟨hd y, startOf_lt hy⟩)
        have hil : i < ps.remaining.length := (List.getElem?_eq_some_iff.1 hi).1
        have hjl : j < ps.remaining.length := (List.getElem?_eq_some_iff.1 hj).1
        obtain rfl : i = j := by omega
        rw [hi] at hj
        injection hj with hj
        exact absurd hj hxy
      refine (Settled.start (dg := dg) (xs := xs)).allFull hd' (e := (ps.remaining[0]?).getD 0) fun d hd256 hde => ?_
      have hno : d ∉ ps.remaining := by
        intro hm
        obtain ⟨j, hj⟩ := List.mem_iff_getElem?.1 hm
        have : j < ps.remaining.length := (List.getElem?_eq_some_iff.1 hj).1
        obtain rfl : j = 0 := by omega
        rw [hj] at hde; exact hde rfl
      rw [hps.mem] at hno
      omega
  obtain ⟨m1, ys, early, e1, s1, p1, full1, hearly1, hearly2, f1⟩ := h1
  rw [e1]
  simp only [Option.bind_some]
  cases early with
  | true =>
    rw [if_pos rfl]
    refine ⟨m1, ys, !done, rfl, s1, p1, fun he => ?_, fun hdn _ => by rw [hdn]; rfl, fun hor _ => ?_, fun _ _ => ⟨m1, rfl⟩, f1⟩
    swap
    · rcases hor with hdn | hall | hno
      · rw [hdn]; rfl
      · exact absurd (hearly1 hall) (by simp)
      · exact absurd rfl (hno m1)
    have hdn : done = true := by simpa using he
    rw [← blockOf_flatMap hd' p1]
    have hmem : ∀ d, d < 256 → ∀ z ∈ blockOf dg xs ys d, z ∈ xs := fun d hd256 z hz => by
      have : z ∈ (List.range 256).flatMap (blockOf dg xs ys) := List.mem_flatMap.2 ⟨d, List.mem_range.2 hd256, hz⟩
      rw [blockOf_flatMap hd' p1] at this
      exact p1.mem_iff.1 this
    refine flatMap_sorted 256 (fun d hd256 => sorted_of_equiv fun x hx y hy => ?_) fun d e' hde he' x hx y hy => ?_
    · refine hdone hdn x y (hxs x (hmem d hd256 x hx) y (hmem d hd256 y hy)) ?_
      rw [blockOf_class full1 p1.length_eq hd256 x hx, blockOf_class full1 p1.length_eq hd256 y hy]
    · refine hcross x y (hxs x (hmem d (by omega) x hx) y (hmem e' he' y hy)) ?_
      rw [blockOf_class full1 p1.length_eq (by omega) x hx, blockOf_class full1 p1.length_eq he' y hy]; exact hde
  | false =>
    rw [if_neg (by simp)]
    have h0 : startOf dg xs 0 = 0 := by simp [startOf]
    have hmem : ∀ d, ∀ z ∈ blockOf dg xs ys d, z ∈ xs := fun d z hz => p1.mem_iff.1 (List.drop_subset _ _ (List.take_subset _ _ hz))
    have hnolarge : ∀ d, 256 ≤ d → blockOf dg xs ys d = [] := by
      intro d hd256
      have a1 := blockOf_length (dg := dg) p1.length_eq d
      have a2 := startOf_le dg xs (d + 1)
      have a3 := startOf_mono dg xs hd256
      rw [startOf_all hd'] at a3
      exact List.eq_nil_of_length_eq_zero (by omega)
    have hR : ∀ d, ∀ x ∈ blockOf dg xs ys d, ∀ y ∈ blockOf dg xs ys d, R x y ∧ dg x = dg y := by
      intro d x hx y hy
      refine ⟨hxs x (hmem d x hx) y (hmem d y hy), ?_⟩
      by_cases hd256 : d < 256
      · rw [blockOf_class full1 p1.length_eq hd256 x hx, blockOf_class full1 p1.length_eq hd256 y hy]
      · rw [hnolarge d (by omega)] at hx; simp at hx
    have hblocks : BlocksAt (startOf dg xs) m1 first (blockOf dg xs ys) := ⟨fun d _ => blockOf_length p1.length_eq d, fun d _ => blockOf_seg s1 p1.length_eq d⟩
    have hno : ∀ d, d < 256 → d ∉ ps.remaining → startOf dg xs d = startOf dg xs (d + 1) := by
      intro d hd256 hno
      rw [hps.mem] at hno
      have := startOf_mono dg xs (show d ≤ d + 1 by omega)
      omega
    have hfr := flagRecurse_spec hrec hps (a := 0) hps.increasing (fun d hdm => ⟨(hps.mem.1 hdm).1, by omega⟩) (fun d _ hd256 hn => hno d hd256 hn) hblocks hR
    rw [h0, Nat.add_zero] at hfr
    obtain ⟨m', zs, e, e2, s2, p2, so2, t2, f2⟩ := hfr.finish (R := R) hd' p1 full1 hxs hcross hno fun d hdm => (hps.mem.1 hdm).1
    refine ⟨m', zs, e, e2, s2, p2, so2, fun hdn hrn => ?_, fun _ => t2, fun h3 h4 => absurd (hearly2 h3 h4) (by simp), f1.trans f2⟩
    subst hrn
    have : ∀ (ds : List Nat) (a : Nat) (m : Mem α), flagRecurse (runNext none) ps first ds a m = some (m, false) := by
      intro ds
      induction ds with
      | nil => intro a m; rfl
      | cons d ds ih =>
        intro a m
        rw [flagRecurse]
        simp [sortMany, runNext, ih]
    rw [this] at e2
    injection e2 with e2
    exact (congrArg Prod.snd e2).symm

theorem skaByteSort_spec {full : α → α → Bool} {T : List α → Prop} {R : α → α → Prop} {rec : Sorter α} (hd : ∀ x, dg x < 256)
    (hrec : SortsOk full T (fun x y => R x y ∧ dg x = dg y) rec) (hcross : ∀ x y, R x y → dg x < dg y → full y x = false)
    {m : Mem α} {first : Nat} (hs : m.Seg first xs) (hxs : ∀ x ∈ xs, ∀ y ∈ xs, R x y) :
    ∃ m' ys e, skaByteSort dg rec m first xs.length = some (m', e) ∧ m'.Seg first ys ∧ ys.Perm xs ∧ (e = false → Sorted full ys) ∧
      (rec = runNext none → e = false) ∧ ((∀ d, d < 256 → ∀ l, l.Perm (xs.filter fun x => decide (dg x = d)) → T l) → e = false) ∧ m.SameOff m' (InRange first xs.length) := by
  obtain ⟨ps, e0, hps⟩ := partitionCounts_spec (dg := dg) hs
  have hd' : ∀ x ∈ xs, dg x < 256 := fun x _ => hd x
  rw [skaByteSort, e0]
  simp only [Option.bind_eq_bind, Option.bind_some]
  have hoff : ∀ d, d < 256 → startOf dg xs d = ps.offset d := fun d hd256 => (hps.offset d hd256).symm
  obtain ⟨rem, st, e1, p1, ⟨ys, s1, hset, f1⟩, hcomp⟩ := skaLoop_spec (skaPredicate_spec hd' hps (m0 := m) (first := first)) (xs.length + ps.remaining.length + 1)
    (rem := ps.remaining) (last := ps.remaining.length) (st := (m, ps.offset)) (fun x hx => (hps.mem.1 hx).1) ⟨xs, hs, Settled.start.congr hoff, fun _ _ => rfl⟩ (Nat.le_refl _)
    (by dsimp only; rw [← gap_congr 256 hoff, gap_start, startOf_all hd']; omega)
    (fun q x hq hx => by rw [List.getElem?_eq_none hq] at hx; cases hx)
  rw [e1]
  simp only [Option.bind_some]
  have hno : ∀ d, d < 256 → d ∉ ps.remaining → startOf dg xs d = startOf dg xs (d + 1) := by
    intro d hd256 hno
    rw [hps.mem] at hno
    have := startOf_mono dg xs (show d ≤ d + 1 by omega)
    omega
  have hp := hset.perm
  have full1 : AllFull dg xs ys := by
    refine hset.allFull hd' (e := (rem[0]?).getD 0) fun d hd256 hde => ?_
    by_cases hin : d ∈ ps.remaining
    · obtain ⟨j, hj⟩ := List.mem_iff_getElem?.1 (p1.mem_iff.2 hin)
      rcases Nat.eq_zero_or_pos j with h0 | h0
      · subst h0; rw [hj] at hde; exact absurd rfl hde
      · rw [hcomp j d h0 hj]
    · have := hno d hd256 hin
      have := hset.lo d hd256
      omega
  have hmem : ∀ d, ∀ z ∈ blockOf dg xs ys d, z ∈ xs := fun d z hz => hp.mem_iff.1 (List.drop_subset _ _ (List.take_subset _ _ hz))
  have hR : ∀ d, ∀ x ∈ blockOf dg xs ys d, ∀ y ∈ blockOf dg xs ys d, R x y ∧ dg x = dg y := by
    intro d x hx y hy
    refine ⟨hxs x (hmem d x hx) y (hmem d y hy), ?_⟩
    by_cases hd256 : d < 256
    · rw [blockOf_class full1 hp.length_eq hd256 x hx, blockOf_class full1 hp.length_eq hd256 y hy]
    · have a1 := blockOf_length (dg := dg) hp.length_eq d
      have a2 := startOf_le dg xs (d + 1)
      have a3 := startOf_mono dg xs (show 256 ≤ d by omega)
      rw [startOf_all hd'] at a3
      have : blockOf dg xs ys d = [] := List.eq_nil_of_length_eq_zero (by omega)
      rw [this] at hx; simp at hx
  have hblocks : BlocksAt (startOf dg xs) st.1 first (blockOf dg xs ys) := ⟨fun d _ => blockOf_length hp.length_eq d, fun d _ => blockOf_seg s1 hp.length_eq d⟩
  have hmemrem : ∀ d, d ∈ rem.reverse ↔ d ∈ ps.remaining := fun d => by rw [List.mem_reverse, p1.mem_iff]
  have hnd : rem.reverse.Nodup := by
    rw [List.nodup_reverse, p1.nodup_iff]
    exact hps.increasing.imp fun h => Nat.ne_of_lt h
  obtain ⟨m', zs, e, e2, s2, p2, so2, t2, f2⟩ := (skaRecurse_spec hrec hps hnd (fun d hdm => (hps.mem.1 ((hmemrem d).1 hdm)).1) hblocks hR).finish (R := R) hd' hp full1 hxs hcross
    (fun d hd256 hn => hno d hd256 fun hm => hn ((hmemrem d).2 hm)) (fun d hdm => (hps.mem.1 ((hmemrem d).1 hdm)).1)
  refine ⟨m', zs, e, e2, s2, p2, so2, fun hrn => ?_, t2, f1.trans f2⟩
  subst hrn
  have : ∀ (ds : List Nat) (m : Mem α), skaRecurse (runNext none) ps first ds m = some (m, false) := by
    intro ds
    induction ds with
    | nil => intro m; rfl
    | cons d ds ih =>
      intro m
      rw [skaRecurse]
      simp [sortMany, runNext, ih]
  rw [this] at e2
  injection e2 with e2
  exact (congrArg Prod.snd e2).symm

end

/-! ## Numbers -/

theorem currentByte_eq (f : α → Nat) (r : Nat) (x : α) : currentByte f r x = f x / 256 ^ r % 256 := by
  rw [currentByte, Nat.shiftRight_eq_div_pow, Nat.mul_comm, Nat.pow_mul]

theorem currentByte_lt (f : α → Nat) (r : Nat) (x : α) : currentByte f r x < 256 := Nat.mod_lt _ (by omega)

theorem div_byte (f : α → Nat) (r : Nat) (x : α) : f x / 256 ^ r = 256 * (f x / 256 ^ (r + 1)) + currentByte f r x := by
  rw [currentByte_eq, Nat.pow_succ, ← Nat.div_div_eq_div_mul, Nat.div_add_mod]

/-- The sort of the standard library sorts by the whole key. -/
def StdSorts (full : α → α → Bool) (P : SkaParams α) : Prop :=
  ∀ (m : Mem α) (first : Nat) (xs : List α), m.Seg first xs → SortsRange false full m first xs (P.std m first xs.length)

theorem StdSorts.ok {full : α → α → Bool} {P : SkaParams α} (h : StdSorts full P) (T : List α → Prop) (R : α → α → Prop) : SortsOk full T R P.stdSort := by
  intro m first xs hs _
  obtain ⟨m', ys, e, s, so, -, f⟩ := h m first xs hs
  refine ⟨m', ys, false, ?_, s, so.perm, fun _ => so.sorted, fun _ => rfl, f⟩
  rw [SkaParams.stdSort, e]; rfl

theorem sortSelector_spec {full : α → α → Bool} {P : SkaParams α} (hstd : StdSorts full P) {T : List α → Prop} {R : α → α → Prop} {f : α → Nat} {next : Option (Sorter α)}
    (hless : ∀ x y, R x y → f x < f y → full y x = false) (hnext : NextOk full T (fun x y => R x y ∧ f x = f y) next) :
    ∀ r, (∀ l, T l → l.length ≤ P.stdThreshold ∨ (r ≤ 1 ∧ next = none)) → SortsOk full T (fun x y => R x y ∧ f x / 256 ^ r = f y / 256 ^ r) (sortSelector P f next r)
  | 0, _ => by
    have := hnext.run
    intro m first xs hs hxs
    exact this m first xs hs fun x hx y hy => by simpa using hxs x hx y hy
  | r + 1, hT => by
    intro m first xs hs hxs
    have hrec : SortsOk full T (fun x y => (R x y ∧ f x / 256 ^ (r + 1) = f y / 256 ^ (r + 1)) ∧ currentByte f r x = currentByte f r y) (sortSelector P f next r) := by
      refine (sortSelector_spec hstd hless hnext r fun n hn => (hT n hn).imp id fun h => ⟨by omega, h.2⟩).mono fun x y h => ⟨h.1.1, ?_⟩
      rw [div_byte f r x, div_byte f r y, h.1.2, h.2]
    have hcross : ∀ x y, (R x y ∧ f x / 256 ^ (r + 1) = f y / 256 ^ (r + 1)) → currentByte f r x < currentByte f r y → full y x = false := by
      intro x y h hlt
      refine hless x y h.1 ?_
      by_contra hge
      have h1 := Nat.div_le_div_right (c := 256 ^ r) (show f y ≤ f x by omega)
      have h2 := div_byte f r x
      have h3 := div_byte f r y
      have h4 := h.2
      omega
    have hnil : next = none → r = 0 → sortSelector P f next r = runNext none := by
      rintro rfl rfl; funext m first n; rfl
    rw [sortSelector]
    split
    · obtain ⟨m', ys, e, a⟩ := hstd.ok T (fun x y => R x y ∧ f x / 256 ^ (r + 1) = f y / 256 ^ (r + 1)) m first xs hs hxs
      exact ⟨m', ys, e, a⟩
    · rename_i hthr
      split
      · obtain ⟨m', ys, e, e1, s1, p1, so1, sf1, -, -, f1⟩ := americanFlagSort_spec (done := (r == 0 && next.isNone)) (currentByte_lt f r) hrec hcross (fun hd x y hR hb => by
          rw [Bool.and_eq_true, beq_iff_eq, Option.isNone_iff_eq_none] at hd
          obtain ⟨rfl, rfl⟩ := hd
          refine hnext x y ⟨hR.1, ?_⟩
          have h2 := div_byte f 0 x
          have h3 := div_byte f 0 y
          have h4 := hR.2
          simp only [Nat.pow_zero, Nat.div_one] at h2 h3
          omega) hs hxs
        refine ⟨m', ys, e, e1, s1, p1, so1, fun hTn => ?_, f1⟩
        rcases hT _ hTn with h | ⟨h1, h2⟩
        · exact absurd h hthr
        · have hr0 : r = 0 := by omega
          exact sf1 (by simp [hr0, h2]) (hnil h2 hr0)
      · obtain ⟨m', ys, e, e1, s1, p1, so1, sf1, -, f1⟩ := skaByteSort_spec (currentByte_lt f r) hrec hcross hs hxs
        refine ⟨m', ys, e, e1, s1, p1, so1, fun hTn => ?_, f1⟩
        rcases hT _ hTn with h | ⟨h1, h2⟩
        · exact absurd h hthr
        · exact sf1 (hnil h2 (by omega))

/-! ## Partitioning into two parts that are sorted -/

theorem partitionThen {full : α → α → Bool} {T : List α → Prop} (hT : ∀ l k : List α, T l → k.length ≤ l.length → T k) {R1 R2 : α → α → Prop} {g1 g2 : Sorter α} (h1 : SortsOk full T R1 g1) (h2 : SortsOk full T R2 g2)
    {p : α → Bool} {m : Mem α} {first : Nat} {xs : List α} (hs : m.Seg first xs) (hR1 : ∀ x ∈ xs, ∀ y ∈ xs, p x = true → p y = true → R1 x y)
    (hR2 : ∀ x ∈ xs, ∀ y ∈ xs, p x = false → p y = false → R2 x y) (hcross : ∀ x ∈ xs, ∀ y ∈ xs, p x = true → p y = false → full y x = false) :
    ∃ m' ys e, (do
      let (m, middle) ← partition true m p first (first + xs.length)
      let (m, e1) ← g1 m first (middle - first)
      let (m, e2) ← g2 m middle (first + xs.length - middle)
      some (m, e1 || e2)) = some (m', e) ∧ m'.Seg first ys ∧ ys.Perm xs ∧ (e = false → Sorted full ys) ∧ (T xs → e = false) ∧ m.SameOff m' (InRange first xs.length) := by
  obtain ⟨m1, ys, k, e1, s1, hp, f1⟩ := C37_partition (p := p) true hs
  have hlen := hp.perm.length_eq
  have hk := hp.le
  obtain ⟨hbefore, hafter⟩ := hp.take_drop
  have hsplit := List.take_append_drop k ys
  have hl1 : (ys.take k).length = k := by rw [List.length_take]; omega
  have hl2 : (ys.drop k).length = xs.length - k := by rw [List.length_drop]; omega
  rw [← hsplit, Mem.seg_append, hl1] at s1
  have hm1 : ∀ x ∈ ys.take k, x ∈ xs := fun x hx => hp.perm.mem_iff.1 (List.take_subset _ _ hx)
  have hm2 : ∀ x ∈ ys.drop k, x ∈ xs := fun x hx => hp.perm.mem_iff.1 (List.drop_subset _ _ hx)
  obtain ⟨m2, as, ea, e2, s2, p2, so2, sf2, f2⟩ := h1 m1 first (ys.take k) s1.1 fun x hx y hy => hR1 x (hm1 x hx) y (hm1 y hy) (hbefore x hx) (hbefore y hy)
  have s1' : m2.Seg (first + k) (ys.drop k) := s1.2.frame f2 fun i hi hc => by simp only [InRange, hl1] at hc; omega
  obtain ⟨m3, bs, eb, e3, s3, p3, so3, sf3, f3⟩ := h2 m2 (first + k) (ys.drop k) s1' fun x hx y hy => hR2 x (hm2 x hx) y (hm2 y hy) (hafter x hx) (hafter y hy)
  have s2' : m3.Seg first as := s2.frame f3 fun i hi hc => by
    have := p2.length_eq
    simp only [InRange] at hc; omega
  refine ⟨m3, as ++ bs, ea || eb, ?_, ?_, ?_, ?_, ?_, ?_⟩
  · rw [e1]
    simp only [Option.bind_eq_bind, Option.bind_some]
    rw [show first + k - first = (ys.take k).length by omega, e2]
    simp only [Option.bind_some]
    rw [show first + xs.length - (first + k) = (ys.drop k).length by omega, e3]
    rfl
  · rw [Mem.seg_append, p2.length_eq, hl1]; exact ⟨s2', s3⟩
  · refine (p2.append p3).trans ?_
    rw [hsplit]; exact hp.perm
  · intro he
    rw [Bool.or_eq_false_iff] at he
    rw [sorted_append]
    refine ⟨so2 he.1, so3 he.2, fun x hx y hy => ?_⟩
    have hx' := p2.mem_iff.1 hx
    have hy' := p3.mem_iff.1 hy
    exact hcross x (hm1 x hx') y (hm2 y hy') (hbefore x hx') (hafter y hy')
  · intro hTn
    rw [sf2 (hT _ _ hTn (by omega)), sf3 (hT _ _ hTn (by omega))]; rfl
  · refine f1.trans ((f2.mono fun x hx => ?_).trans (f3.mono fun x hx => ?_)) <;> simp only [InRange] at hx ⊢ <;> omega

theorem SortsOk.many {full : α → α → Bool} {T : List α → Prop} {R : α → α → Prop} {g : Sorter α} (h : SortsOk full T R g) : SortsOk full T R (sortMany g) :=
  fun _ _ _ hs hxs => h.guarded hs rfl hxs

/-! ## Ranges -/

theorem matchLength_spec (eq : Nat → Bool) : ∀ k i, matchLength eq k i ≤ k ∧ ∀ j, i ≤ j → j < i + matchLength eq k i → eq j = true
  | 0, i => ⟨Nat.le_refl _, fun j h1 h2 => by rw [matchLength] at h2; omega⟩
  | k + 1, i => by
    rw [matchLength]
    split
    · rename_i h
      obtain ⟨h1, h2⟩ := matchLength_spec eq k (i + 1)
      refine ⟨by omega, fun j a b => ?_⟩
      by_cases hj : j = i
      · rw [hj]; exact h
      · exact h2 j (by omega) (by omega)
    · exact ⟨by omega, fun j a b => by omega⟩

theorem prefixScan_spec {len : α → Nat} {eq : Nat → α → α → Bool} {start : Nat} {m : Mem α} {x : α} : ∀ {ys : List α} {it largest : Nat}, m.Seg it ys → (∀ y ∈ ys, start ≤ len y) →
    ∃ k, prefixScan len eq start m x ys.length it largest = some k ∧ k ≤ largest ∧ ∀ y ∈ ys, k ≤ len y - start ∧ ∀ j, start ≤ j → j < start + k → eq j x y = true
  | [], it, largest, _, _ => ⟨largest, rfl, Nat.le_refl _, fun y hy => by simp at hy⟩
  | y :: ys, it, largest, hs, hl => by
    rw [Mem.seg_cons] at hs
    rw [List.length_cons, prefixScan, hs.1]
    simp only [Option.bind_eq_bind, Option.bind_some]
    rw [if_pos (hl y (by simp))]
    obtain ⟨k, e, h1, h2⟩ := prefixScan_spec (len := len) (eq := eq) (x := x)
      (largest := min largest (matchLength (fun i => eq i x y) (min (len x) (len y) - start) start)) hs.2 fun z hz => hl z (by simp [hz])
    obtain ⟨a1, a2⟩ := matchLength_spec (fun i => eq i x y) (min (len x) (len y) - start) start
    refine ⟨k, e, by omega, fun z hz => ?_⟩
    rcases List.mem_cons.1 hz with rfl | hz
    · exact ⟨by omega, fun j b1 b2 => a2 j b1 (by omega)⟩
    · exact h2 z hz

theorem commonPrefix_spec {len : α → Nat} {eq : Nat → α → α → Bool} {same : Nat → α → α → Prop} (hrefl : ∀ i x, same i x x) (hsymm : ∀ i x y, same i x y → same i y x)
    (htrans : ∀ i x y z, same i x y → same i y z → same i x z) (heq : ∀ i x y, eq i x y = true → same i x y) {start : Nat} {m : Mem α} {first : Nat} {xs : List α} (hs : m.Seg first xs)
    (hl : ∀ x ∈ xs, start ≤ len x) :
    ∃ k, commonPrefix len eq start m first xs.length = some k ∧ ∀ x ∈ xs, start + k ≤ len x ∧ ∀ y ∈ xs, ∀ j, start ≤ j → j < start + k → same j x y := by
  match xs, hs, hl with
  | [], _, _ => exact ⟨0, rfl, fun x hx => by simp at hx⟩
  | x :: xs, hs, hl =>
    rw [Mem.seg_cons] at hs
    rw [List.length_cons, commonPrefix, hs.1]
    simp only [Option.bind_eq_bind, Option.bind_some]
    have hx := hl x (by simp)
    rw [if_pos hx]
    obtain ⟨k, e, h1, h2⟩ := prefixScan_spec (len := len) (eq := eq) (x := x) (largest := len x - start) hs.2 fun z hz => hl z (by simp [hz])
    have hall : ∀ y ∈ x :: xs, ∀ j, start ≤ j → j < start + k → same j x y := by
      intro y hy j a b
      rcases List.mem_cons.1 hy with rfl | hy
      · exact hrefl _ _
      · exact heq _ _ _ ((h2 y hy).2 j a b)
    refine ⟨k, e, fun y hy => ⟨?_, fun z hz j a b => htrans _ _ _ _ (hsymm _ _ _ (hall y hy j a b)) (hall z hz j a b)⟩⟩
    have := hl y hy
    rcases List.mem_cons.1 hy with rfl | hy
    · omega
    · have := (h2 y hy).1; omega

/-- The first `i` components are the same. -/
def Common (len : α → Nat) (same : Nat → α → α → Prop) (i : Nat) (x y : α) : Prop := i ≤ len x ∧ i ≤ len y ∧ ∀ j, j < i → same j x y

theorem lexUpto_at {c : Nat → α → α → Bool} {x y : α} : ∀ (k i n : Nat), k < n → (∀ j, i ≤ j → j < i + k → c j x y = false ∧ c j y x = false) → c (i + k) x y = true →
    lexUpto c n i x y = true
  | k, i, 0, hk, _, _ => by omega
  | 0, i, n + 1, _, _, h => by rw [Nat.add_zero] at h; rw [lexUpto, lexlt, h]; rfl
  | k + 1, i, n + 1, hk, hc, h => by
    have h0 := hc i (Nat.le_refl _) (by omega)
    rw [lexUpto, lexlt, h0.1, h0.2, lexUpto_at k (i + 1) n (by omega) (fun j a b => hc j (by omega) (by omega)) (by rw [← h]; congr 1; omega)]
    rfl

theorem Desc.less_of_common {fixed : Option Nat} {len : α → Nat} {elem : Nat → Desc α} {i : Nat} {x y : α} (h : Common len (fun j => (elem j).same) i x y) (hy : i < len y)
    (hx : len x = i ∨ (i < len x ∧ (elem i).less x y = true)) : (Desc.list fixed len elem).less x y = true := by
  obtain ⟨h1, h2, h3⟩ := h
  rw [Desc.less]
  refine lexUpto_at i 0 _ (by omega) (fun j _ hj => ?_) ?_
  · rw [cellLess, cellLess, if_pos (by omega), if_pos (by omega)]
    exact ((elem j).same_iff x y).1 (h3 j (by omega))
  · rw [Nat.zero_add, cellLess]
    rcases hx with hx | ⟨hx, hl⟩
    · rw [if_neg (by omega)]; simp only [decide_eq_true_eq]; omega
    · rw [if_pos ⟨hx, hy⟩]; exact hl

theorem Desc.same_of_common {fixed : Option Nat} {len : α → Nat} {elem : Nat → Desc α} {i : Nat} {x y : α} (h : Common len (fun j => (elem j).same) i x y) (hx : len x = i) (hy : len y = i) :
    (Desc.list fixed len elem).same x y := ⟨by omega, fun j hj => h.2.2 j (by omega)⟩

theorem Desc.same_refl (d : Desc α) (x : α) : d.same x x := (d.same_iff x x).2 ⟨d.less_strictWeak.irrefl x, d.less_strictWeak.irrefl x⟩

theorem Desc.same_symm {d : Desc α} {x y : α} (h : d.same x y) : d.same y x := (d.same_iff y x).2 ((d.same_iff x y).1 h).symm

theorem Desc.same_trans {d : Desc α} {x y z : α} (h1 : d.same x y) (h2 : d.same y z) : d.same x z := by
  obtain ⟨a1, a2⟩ := (d.same_iff x y).1 h1
  obtain ⟨b1, b2⟩ := (d.same_iff y z).1 h2
  exact (d.same_iff x z).2 ⟨d.less_strictWeak.negTrans b1 a1, d.less_strictWeak.negTrans a2 b2⟩

theorem listSort_spec {full : α → α → Bool} {P : SkaParams α} (hstd : StdSorts full P) {T : List α → Prop} (hT : ∀ l k : List α, T l → k.length ≤ l.length → T k) {fixed : Option Nat} {len : α → Nat}
    {elem : Nat → Desc α} {eq : Nat → α → α → Bool} {elemSort : Nat → Option (Sorter α) → Sorter α} {next : Option (Sorter α)} {R : α → α → Prop}
    (heq : ∀ i x y, eq i x y = true → (elem i).same x y)
    (helem : ∀ i R' nxt, (∀ x y, R' x y → (elem i).less x y = true → full y x = false) → NextOk full T (fun x y => R' x y ∧ (elem i).same x y) (some nxt) → SortsOk full T R' (elemSort i (some nxt)))
    (hless : ∀ x y, R x y → (Desc.list fixed len elem).less x y = true → full y x = false) (hnext : NextOk full T (fun x y => R x y ∧ (Desc.list fixed len elem).same x y) next) :
    ∀ (limit idx : Nat), SortsOk full T (fun x y => R x y ∧ Common len (fun j => (elem j).same) idx x y) (listSort P len eq elemSort next limit idx) := by
  have step : ∀ (rest : Nat → Sorter α) (idx : Nat), (∀ idx', SortsOk full T (fun x y => R x y ∧ Common len (fun j => (elem j).same) idx' x y) (rest idx')) →
      SortsOk full T (fun x y => R x y ∧ Common len (fun j => (elem j).same) idx x y) (listStep len eq elemSort next rest idx) := by
    intro rest idx ih m first xs hs hxs
    obtain ⟨k, ek, hk⟩ := commonPrefix_spec (len := len) (eq := eq) (same := fun j => (elem j).same) (fun i x => (elem i).same_refl x) (fun i x y => Desc.same_symm)
      (fun i x y z => Desc.same_trans) heq hs (start := idx) fun x hx => (hxs x hx x hx).2.1
    have hcom : ∀ x ∈ xs, ∀ y ∈ xs, Common len (fun j => (elem j).same) (idx + k) x y := by
      intro x hx y hy
      refine ⟨(hk x hx).1, (hk y hy).1, fun j hj => ?_⟩
      by_cases hji : j < idx
      · exact (hxs x hx y hy).2.2.2 j hji
      · exact (hk x hx).2 y hy j (by omega) hj
    have hE := helem (idx + k) (fun x y => R x y ∧ Common len (fun j => (elem j).same) (idx + k) x y ∧ idx + k < len x ∧ idx + k < len y)
      (rest (idx + k + 1)) (fun x y h hl => hless x y h.1 (Desc.less_of_common h.2.1 h.2.2.2 (.inr ⟨h.2.2.1, hl⟩)))
      ((ih (idx + k + 1)).mono fun x y h => ⟨h.1.1, by have := h.1.2.2.1; omega, by have := h.1.2.2.2; omega, fun j hj => by
        by_cases hjk : j = idx + k
        · rw [hjk]; exact h.2
        · exact h.1.2.1.2.2 j (by omega)⟩)
    obtain ⟨m', ys, e, r⟩ := partitionThen hT (p := fun x => decide (len x ≤ idx + k)) hnext.run.many hE.many hs
      (fun x hx y hy h1 h2 => ⟨(hxs x hx y hy).1, by
        have a1 := (hcom x hx y hy).1
        have a2 := (hcom x hx y hy).2.1
        simp only [decide_eq_true_eq] at h1 h2
        exact Desc.same_of_common (hcom x hx y hy) (by omega) (by omega)⟩)
      (fun x hx y hy h1 h2 => by
        simp only [decide_eq_false_iff_not] at h1 h2
        exact ⟨(hxs x hx y hy).1, hcom x hx y hy, by omega, by omega⟩)
      (fun x hx y hy h1 h2 => by
        have a1 := (hcom x hx y hy).1
        simp only [decide_eq_true_eq, decide_eq_false_iff_not] at h1 h2
        exact hless x y (hxs x hx y hy).1 (Desc.less_of_common (hcom x hx y hy) (by omega) (.inl (by omega))))
    refine ⟨m', ys, e, ?_, r.2⟩
    rw [listStep, ek]
    exact r.1
  intro limit
  induction limit with
  | zero => intro idx; exact step _ idx fun idx' => hstd.ok T _
  | succ limit ih => intro idx; exact step _ idx ih

/-! ## Keys -/

namespace Desc

/-- The key as the code sorts by it: of tuples in ranges only the first component. -/
def headed : Desc α → Desc α
  | bool f => bool f
  | num b f => num b f
  | list fixed len elem => list fixed len fun i => (elem i).headed
  | tuple _ comp => (comp 0).headed

/-- There are no empty tuples. -/
def NonEmpty : Desc α → Prop
  | bool _ => True
  | num _ _ => True
  | list _ _ elem => ∀ i, (elem i).NonEmpty
  | tuple n comp => 0 < n ∧ ∀ i, (comp i).NonEmpty

theorem sameB_same : ∀ (d : Desc α) (x y : α), d.sameB x y = true → d.same x y
  | .bool f, x, y, h => by simpa [sameB, same] using h
  | .num _ f, x, y, h => by simpa [sameB, same] using h
  | .list _ len elem, x, y, h => by
    simp only [sameB, Bool.and_eq_true, beq_iff_eq, List.all_eq_true, List.mem_range] at h
    exact ⟨h.1, fun i hi => (elem i).sameB_same x y (h.2 i hi)⟩
  | .tuple n comp, x, y, h => by
    simp only [sameB, List.all_eq_true, List.mem_range] at h
    exact fun i hi => (comp i).sameB_same x y (h i hi)

theorem same_headed : ∀ (d : Desc α), d.NonEmpty → ∀ (x y : α), d.same x y → d.headed.same x y
  | .bool f, _, x, y, h => h
  | .num _ f, _, x, y, h => h
  | .list _ len elem, hn, x, y, h => ⟨h.1, fun i hi => (elem i).same_headed (hn i) x y (h.2 i hi)⟩
  | .tuple n comp, hn, x, y, h => (comp 0).same_headed (hn.2 0) x y (h 0 hn.1)

theorem headEq_same : ∀ (d : Desc α), d.NonEmpty → ∀ (x y : α), d.headEq x y = true → d.headed.same x y
  | .bool f, hn, x, y, h => same_headed _ hn x y (sameB_same _ x y h)
  | .num _ f, hn, x, y, h => same_headed _ hn x y (sameB_same _ x y h)
  | .list _ len elem, hn, x, y, h => same_headed _ hn x y (sameB_same _ x y h)
  | .tuple n comp, hn, x, y, h => (comp 0).headEq_same (hn.2 0) x y h

/-- The sort of this key never leaves early. -/
def SafeAt : Desc α → Bool → Prop
  | bool _, _ => True
  | num b _, last => b ≤ 1 ∧ last = true
  | list _ _ _, _ => False
  | tuple _ comp, last => (comp 0).SafeAt last

end Desc

theorem inplaceSort_spec {full : α → α → Bool} {P : SkaParams α} (hstd : StdSorts full P) {T : List α → Prop} (hT : ∀ l k : List α, T l → k.length ≤ l.length → T k) :
    ∀ (d : Desc α), d.WF → d.NonEmpty → ∀ (R : α → α → Prop) (next : Option (Sorter α)), ((∀ l, T l → l.length ≤ P.stdThreshold) ∨ d.SafeAt next.isNone) →
      (∀ x y, R x y → d.headed.less x y = true → full y x = false) → NextOk full T (fun x y => R x y ∧ d.headed.same x y) next → SortsOk full T R (inplaceSort P d next)
  | .bool f, _, _, R, next, _, hless, hnext => by
    intro m first xs hs hxs
    obtain ⟨m', ys, e, r⟩ := partitionThen hT (p := fun x => !f x) hnext.run hnext.run hs
      (fun x hx y hy h1 h2 => ⟨hxs x hx y hy, by simp only [Bool.not_eq_true'] at h1 h2; simp only [Desc.headed, Desc.same]; rw [h1, h2]⟩)
      (fun x hx y hy h1 h2 => ⟨hxs x hx y hy, by simp only [Bool.not_eq_false'] at h1 h2; simp only [Desc.headed, Desc.same]; rw [h1, h2]⟩)
      (fun x hx y hy h1 h2 => hless x y (hxs x hx y hy) (by
        simp only [Bool.not_eq_true', Bool.not_eq_false'] at h1 h2
        simp only [Desc.headed, Desc.less, h1, h2]; rfl))
    exact ⟨m', ys, e, r⟩
  | .num b f, hw, _, R, next, hsafe, hless, hnext => by
    refine (sortSelector_spec hstd (R := R) (fun x y hR hl => hless x y hR (by simpa [Desc.headed, Desc.less] using hl)) hnext b fun n hn => ?_).mono fun x y hR => ⟨hR, ?_⟩
    · rcases hsafe with h | h
      · exact .inl (h n hn)
      · exact .inr ⟨h.1, by simpa using h.2⟩
    · rw [Nat.div_eq_of_lt (hw.2 x), Nat.div_eq_of_lt (hw.2 y)]
  | .list fixed len elem, hw, hn, R, next, hsafe, hless, hnext => by
    rcases hsafe with hsafe | hsafe
    · refine (listSort_spec hstd hT (fixed := fixed) (len := len) (elem := fun i => (elem i).headed) (R := R) (fun i x y h => (elem i).headEq_same (hn i) x y h)
        (fun i R' nxt h1 h2 => inplaceSort_spec hstd hT (elem i) (hw.2 i) (hn i) R' (some nxt) (.inl hsafe) h1 h2) hless hnext 15 0).mono fun x y hR => ⟨hR, by omega, by omega, fun j hj => by omega⟩
    · exact hsafe.elim
  | .tuple n comp, hw, hn, R, next, hsafe, hless, hnext =>
    inplaceSort_spec hstd hT (comp 0) (hw 0) (hn.2 0) R next hsafe hless hnext

/-- The order of several keys in turn. -/
def chainLess (ds : List (Desc α)) : α → α → Bool := ds.foldr (fun d lt => lexlt d.less lt) fun _ _ => false

/-- Boolean keys, and at the end one of a single byte. -/
def SafeChain : List (Desc α) → Prop
  | [] => True
  | d :: ds => d.SafeAt ds.isEmpty ∧ SafeChain ds

theorem sortStarter_isNone (P : SkaParams α) (ds : List (Desc α)) : (sortStarter P ds).isNone = ds.isEmpty := by cases ds <;> rfl

theorem sortStarter_spec {full : α → α → Bool} {P : SkaParams α} (hstd : StdSorts full P) {T : List α → Prop} (hT : ∀ l k : List α, T l → k.length ≤ l.length → T k) :
    ∀ (ds : List (Desc α)) (R : α → α → Prop), (∀ d ∈ ds, d.WF ∧ d.NonEmpty) → ((∀ l, T l → l.length ≤ P.stdThreshold) ∨ SafeChain ds) →
      (∀ x y, R x y → chainLess (ds.map Desc.headed) x y = true → full y x = false) →
      (∀ x y, R x y → (∀ d ∈ ds, d.headed.same x y) → full x y = false) → NextOk full T R (sortStarter P ds)
  | [], R, _, _, _, h2 => fun x y hR => h2 x y hR fun d hd => by simp at hd
  | d :: ds, R, hw, hsafe, h1, h2 => by
    obtain ⟨hwd, hnd⟩ := hw d (by simp)
    have hnext := sortStarter_spec hstd hT ds (fun x y => R x y ∧ d.headed.same x y) (fun e he => hw e (by simp [he])) (hsafe.imp id fun h => h.2)
      (fun x y hR hl => h1 x y hR.1 (by
        obtain ⟨a, b⟩ := (d.headed.same_iff x y).1 hR.2
        have hl' : List.foldr (fun d lt => lexlt d.less lt) (fun _ _ => false) (List.map Desc.headed ds) x y = true := hl
        simp only [chainLess, List.map_cons, List.foldr_cons, lexlt, a, b, hl']; rfl))
      (fun x y hR hs => h2 x y hR.1 fun e he => by
        rcases List.mem_cons.1 he with rfl | he
        · exact hR.2
        · exact hs e he)
    have hd := inplaceSort_spec hstd hT d hwd hnd R (sortStarter P ds) (hsafe.imp id fun h => by rw [sortStarter_isNone]; exact h.1)
      (fun x y hR hl => h1 x y hR (by simp only [chainLess, List.map_cons, List.foldr_cons, lexlt, hl]; rfl)) hnext
    intro m first xs hs hxs
    dsimp only [sortStarter]
    split
    · rename_i hlen
      exact ⟨m, xs, false, rfl, hs, List.Perm.refl _, fun _ => sorted_short hlen, fun _ => rfl, fun _ _ => rfl⟩
    · exact hd m first xs hs hxs

/-! ## The keys of ranges of plain elements -/

namespace Desc

/-- The elements of ranges are not tuples. -/
def Plain : Desc α → Prop
  | bool _ => True
  | num _ _ => True
  | list _ _ elem => ∀ i, (elem i).Plain ∧ (elem i).headed = elem i
  | tuple _ comp => ∀ i, (comp i).Plain

theorem chain_wf : ∀ (d : Desc α), d.WF → d.NonEmpty → ∀ e ∈ d.chain, e.WF ∧ e.NonEmpty
  | .bool f, hw, hn, e, he => by simp only [chain, List.mem_singleton] at he; rw [he]; exact ⟨hw, hn⟩
  | .num _ f, hw, hn, e, he => by simp only [chain, List.mem_singleton] at he; rw [he]; exact ⟨hw, hn⟩
  | .list _ len elem, hw, hn, e, he => by simp only [chain, List.mem_singleton] at he; rw [he]; exact ⟨hw, hn⟩
  | .tuple n comp, hw, hn, e, he => by
    rw [chain, List.mem_flatMap] at he
    obtain ⟨i, _, hi⟩ := he
    exact (comp i).chain_wf (hw i) (hn.2 i) e hi

theorem chain_headed : ∀ (d : Desc α), d.Plain → d.chain.map headed = d.chain
  | .bool f, _ => rfl
  | .num _ f, _ => rfl
  | .list _ len elem, hp => by
    simp only [chain, List.map_cons, List.map_nil, headed]
    congr 2
    funext i; exact (hp i).2
  | .tuple n comp, hp => by
    rw [chain, List.map_flatMap]
    congr 1
    funext i; exact (comp i).chain_headed (hp i)

end Desc

theorem lexlt_assoc (a b c : α → α → Bool) : lexlt (lexlt a b) c = lexlt a (lexlt b c) := by
  funext x y
  simp only [lexlt]
  cases a x y <;> cases a y x <;> cases b x y <;> cases b y x <;> cases c x y <;> rfl

theorem chainLess_append (as bs : List (Desc α)) : chainLess (as ++ bs) = lexlt (chainLess as) (chainLess bs) := by
  induction as with
  | nil => funext x y; simp [chainLess, lexlt]
  | cons a as ih =>
    have h1 : chainLess (a :: as ++ bs) = lexlt a.less (chainLess (as ++ bs)) := rfl
    have h2 : chainLess (a :: as) = lexlt a.less (chainLess as) := rfl
    rw [h1, ih, h2, lexlt_assoc]

theorem chainLess_flatMap {g : Nat → List (Desc α)} {lt : Nat → α → α → Bool} (h : ∀ i, chainLess (g i) = lt i) : ∀ n i, chainLess ((List.range' i n).flatMap g) = lexUpto lt n i
  | 0, _ => rfl
  | n + 1, i => by
    rw [List.range'_succ, List.flatMap_cons, chainLess_append, chainLess_flatMap h n (i + 1), h, lexUpto]

theorem lexlt_false (a : α → α → Bool) : lexlt a (fun _ _ => false) = a := by funext x y; simp [lexlt]

/-- Sorting by the sub keys one after the other is sorting by the key. -/
theorem chainLess_chain : ∀ (d : Desc α), chainLess d.chain = d.less
  | .bool f => lexlt_false _
  | .num _ f => lexlt_false _
  | .list _ len elem => lexlt_false _
  | .tuple n comp => by
    rw [Desc.chain, List.range_eq_range', chainLess_flatMap (fun i => chainLess_chain (comp i)) n 0]; rfl

theorem chain_same {x y : α} : ∀ (ds : List (Desc α)), (∀ d ∈ ds, d.same x y) → chainLess ds x y = false
  | [], _ => rfl
  | d :: ds, h => by
    have hd := (d.same_iff x y).1 (h d (by simp))
    have hds := chain_same ds fun e he => h e (by simp [he])
    have h1 : chainLess (d :: ds) = lexlt d.less (chainLess ds) := rfl
    rw [h1, lexlt, hd.1, hds]; simp

/-! ## ska_sort -/

/-- What the standard library's sort does. -/
def SortsBy (lt : α → α → Bool) (std : Mem α → Nat → Nat → Option (Mem α)) : Prop :=
  ∀ (m : Mem α) (first : Nat) (xs : List α), m.Seg first xs → SortsRange false lt m first xs (std m first xs.length)

/-- `ska_sort` never has undefined behaviour, ends, permutes the elements of the range and changes nothing else,
for all keys, whatever it does about their order. -/
theorem C42_permutation {d : Desc α} (hw : d.WF) (hn : d.NonEmpty) {std : Mem α → Nat → Nat → Option (Mem α)} (hstd : SortsBy d.less std) {m : Mem α} {first : Nat} {xs : List α}
    (hs : m.Seg first xs) :
    ∃ m' ys e, skaSort std d m first xs.length = some (m', e) ∧ m'.Seg first ys ∧ ys.Perm xs ∧ m.SameOff m' (InRange first xs.length) := by
  have hstd' : StdSorts (fun _ _ => false) ⟨128, 1024, std⟩ := by
    intro m first xs hs
    obtain ⟨m', ys, e, s, so, -, f⟩ := hstd m first xs hs
    exact ⟨m', ys, e, s, ⟨sorted_of_equiv fun _ _ _ _ => rfl, so.perm⟩, fun h => (by cases h), f⟩
  obtain ⟨m', ys, e, e1, s1, p1, -, -, f1⟩ := (sortStarter_spec hstd' (T := fun _ => False) (fun _ _ h _ => h) d.chain (fun _ _ => True) (d.chain_wf hw hn) (.inl fun _ h => h.elim)
    (fun _ _ _ _ => rfl) (fun _ _ _ _ => rfl)).run m first xs hs fun _ _ _ _ => trivial
  exact ⟨m', ys, e, e1, s1, p1, f1⟩

theorem skaSort_plain {d : Desc α} (hw : d.WF) (hn : d.NonEmpty) (hp : d.Plain) {P : SkaParams α} (hstd : StdSorts d.less P) {T : List α → Prop} (hT : ∀ l k : List α, T l → k.length ≤ l.length → T k)
    (hsafe : (∀ l, T l → l.length ≤ P.stdThreshold) ∨ SafeChain d.chain) : SortsOk d.less T (fun _ _ => True) (inplaceRadixSort P d) :=
  (sortStarter_spec hstd hT d.chain (fun _ _ => True) (d.chain_wf hw hn) hsafe
    (fun x y _ hl => by rw [d.chain_headed hp, chainLess_chain] at hl; exact d.less_strictWeak.asymm hl)
    (fun x y _ hs => by
      rw [← chainLess_chain d]
      refine chain_same d.chain fun e he => ?_
      obtain ⟨e', he', rfl⟩ := List.mem_map.1 (show e ∈ d.chain.map Desc.headed by rw [d.chain_headed hp]; exact he)
      exact hs e' he')).run

/-- The full claim is that `ska_sort` sorts every range. It does unless some call of `american_flag_sort` returned early (the flag), for
all keys in which no range has tuples as its elements. Both exceptions are real, see the theorems
`C42_american_flag_violated` and `C42_range_of_tuples_violated`. -/
theorem C42_ska_sort_partial {d : Desc α} (hw : d.WF) (hn : d.NonEmpty) (hp : d.Plain) {std : Mem α → Nat → Nat → Option (Mem α)} (hstd : SortsBy d.less std) {m : Mem α} {first : Nat}
    {xs : List α} (hs : m.Seg first xs) :
    ∃ m' ys e, skaSort std d m first xs.length = some (m', e) ∧ m'.Seg first ys ∧ (e = false → IsSort d.less xs ys) ∧ m.SameOff m' (InRange first xs.length) := by
  obtain ⟨m', ys, e, e1, s1, p1, so1, -, f1⟩ := skaSort_plain hw hn hp (P := ⟨128, 1024, std⟩) hstd (T := fun _ => False) (fun _ _ h _ => h) (.inl fun _ h => h.elim) m first xs hs
    fun _ _ _ _ => trivial
  exact ⟨m', ys, e, e1, s1, fun he => ⟨so1 he, p1⟩, f1⟩

/-- Ranges of at most 128 elements are sorted. -/
theorem C42_ska_sort_small {d : Desc α} (hw : d.WF) (hn : d.NonEmpty) (hp : d.Plain) {std : Mem α → Nat → Nat → Option (Mem α)} (hstd : SortsBy d.less std) {m : Mem α} {first : Nat}
    {xs : List α} (hs : m.Seg first xs) (hlen : xs.length ≤ 128) :
    ∃ m' ys, skaSort std d m first xs.length = some (m', false) ∧ m'.Seg first ys ∧ IsSort d.less xs ys ∧ m.SameOff m' (InRange first xs.length) := by
  obtain ⟨m', ys, e, e1, s1, p1, so1, sf1, f1⟩ := skaSort_plain hw hn hp (P := ⟨128, 1024, std⟩) hstd (T := fun l => l.length ≤ 128) (fun n k h1 h2 => Nat.le_trans h2 h1) (.inl fun n h => h) m first xs hs
    fun _ _ _ _ => trivial
  obtain rfl := sf1 hlen
  exact ⟨m', ys, e1, s1, ⟨so1 rfl, p1⟩, f1⟩

/-- Ranges of any size are sorted if the key consists of booleans and at most one number of a single byte at its
end. -/
theorem C42_ska_sort_bytes {d : Desc α} (hw : d.WF) (hn : d.NonEmpty) (hp : d.Plain) (hc : SafeChain d.chain) {std : Mem α → Nat → Nat → Option (Mem α)} (hstd : SortsBy d.less std)
    {m : Mem α} {first : Nat} {xs : List α} (hs : m.Seg first xs) :
    ∃ m' ys, skaSort std d m first xs.length = some (m', false) ∧ m'.Seg first ys ∧ IsSort d.less xs ys ∧ m.SameOff m' (InRange first xs.length) := by
  obtain ⟨m', ys, e, e1, s1, p1, so1, sf1, f1⟩ := skaSort_plain hw hn hp (P := ⟨128, 1024, std⟩) hstd (T := fun _ => True) (fun _ _ _ _ => trivial) (.inr hc) m first xs hs
    fun _ _ _ _ => trivial
  obtain rfl := sf1 trivial
  exact ⟨m', ys, e1, s1, ⟨so1 rfl, p1⟩, f1⟩

/-! ## Where it does not sort -/

/-- A sort like the standard library's that is given for the examples: insertion sort on the values. -/
def refSort (lt : α → α → Bool) (m : Mem α) (first n : Nat) : Option (Mem α) := do
  let xs ← (List.range n).mapM fun i => m (first + i)
  let ys := xs.mergeSort fun x y => !lt y x
  some fun a => if first ≤ a ∧ a < first + n then ys[a - first]? else m a

theorem mapM_seg {m : Mem α} : ∀ {xs : List α} {first : Nat}, m.Seg first xs → (List.range xs.length).mapM (fun i => m (first + i)) = some xs := by
  intro xs first h
  have : ∀ (k : Nat) (l : List Nat), (∀ i ∈ l, i < xs.length) → l.mapM (fun i => m (first + i)) = some (l.filterMap fun i => xs[i]?) := by
    intro _ l
    induction l with
    | nil => intro _; rfl
    | cons a l ih =>
      intro hl
      have ha := hl a (by simp)
      rw [List.mapM_cons, h a ha, ih fun i hi => hl i (by simp [hi])]
      simp [List.getElem?_eq_getElem ha]
  rw [this 0 _ fun i hi => List.mem_range.1 hi]
  congr 1
  clear this h
  induction xs using List.reverseRecOn with
  | nil => rfl
  | append_singleton xs x ih =>
    rw [List.length_append, List.length_singleton, List.range_succ, List.filterMap_append]
    have : (List.range xs.length).filterMap (fun i => (xs ++ [x])[i]?) = (List.range xs.length).filterMap fun i => xs[i]? := by
      apply List.filterMap_congr
      intro i hi
      rw [List.getElem?_append_left (List.mem_range.1 hi)]
    rw [this, ih]
    simp

/-- The assumption about the standard library's sort can be met. -/
theorem refSort_sorts {lt : α → α → Bool} (h : StrictWeak lt) : SortsBy lt (refSort lt) := by
  intro m first xs hs
  have hp : (xs.mergeSort fun x y => !lt y x).Perm xs := List.mergeSort_perm _ _
  refine ⟨_, xs.mergeSort fun x y => !lt y x, by rw [refSort, mapM_seg hs]; rfl, ?_, ⟨?_, hp⟩, fun hc => (by cases hc), ?_⟩
  · intro i hi
    have := hp.length_eq
    dsimp only
    rw [if_pos (by omega), show first + i - first = i by omega, List.getElem?_eq_getElem hi]
  · have := List.pairwise_mergeSort (le := fun x y => !lt y x) (fun a b c h1 h2 => by
      simp only [Bool.not_eq_true'] at *; exact h.negTrans h1 h2) (fun a b => by
      cases h1 : lt b a with
      | false => rfl
      | true => simp [h.asymm h1]) xs
    exact this.imp fun hab => by simpa using hab
  · intro a ha
    dsimp only
    rw [if_neg ha]

theorem americanFlagSort_early {dg : α → Nat} {done : Bool} {rec : Sorter α} {m m' : Mem α} {first n : Nat}
    (h : (do let ps ← partitionCounts dg m first n; flagMove dg ps m first n) = some (m', true)) : americanFlagSort dg done rec m first n = some (m', !done) := by
  rw [americanFlagSort]
  cases hp : partitionCounts dg m first n with
  | none => rw [hp] at h; cases h
  | some ps =>
    rw [hp] at h
    simp only [Option.bind_eq_bind, Option.bind_some] at h ⊢
    rw [h]; rfl

set_option maxRecDepth 100000 in
/-- Two-byte keys: 1, 0 and 127 times 256. `american_flag_sort` returns once it has put all elements into the right block (line 239) and 1 stays
before 0, whatever the standard library's sort does. -/
theorem C42_american_flag_violated (std : Mem Nat → Nat → Nat → Option (Mem Nat)) :
    ∃ m', skaSort std (.num 2 id) (fun a => badInput[a]?) 0 129 = some (m', true) ∧ m' 0 = some 1 ∧ m' 1 = some 0 := by
  have key : ((do let ps ← partitionCounts (currentByte id 1) (fun a => badInput[a]?) 0 129; flagMove (currentByte id 1) ps (fun a => badInput[a]?) 0 129).map
      fun r : Mem Nat × Bool => (r.2, r.1 0, r.1 1)) = some (true, some 1, some 0) := by decide +kernel
  obtain ⟨⟨m', e⟩, h1, h2⟩ := Option.map_eq_some_iff.1 key
  simp only [Prod.mk.injEq] at h2
  obtain ⟨rfl, h2, h3⟩ := h2
  refine ⟨m', ?_, h2, h3⟩
  exact americanFlagSort_early (done := false) h1

/-- Elements that are ranges of pairs: `common_prefix` and the sorts of the elements look at the first component of the pairs only. Here
the pairs are (1, 2) and (1, 1), and the two elements stay in that order, whatever the standard
library's sort does. -/
def pairsDesc : Desc (Nat × Nat) := .list none (fun _ => 1) fun _ => .tuple 2 fun i => if i = 0 then .num 1 (fun p => p.1 % 256) else .num 1 (fun p => p.2 % 256)

theorem C42_range_of_tuples_violated (std : Mem (Nat × Nat) → Nat → Nat → Option (Mem (Nat × Nat))) :
    pairsDesc.less (1, 1) (1, 2) = true ∧
    ∃ m', skaSort std pairsDesc (fun a => [(1, 2), (1, 1)][a]?) 0 2 = some (m', false) ∧ m' 0 = some (1, 2) ∧ m' 1 = some (1, 1) := by
  refine ⟨by decide +kernel, _, rfl, ?_, ?_⟩ <;> rfl

/-! ## Examples -/

/-- Small thresholds reach all branches. -/
example : ((inplaceRadixSort ⟨1, 3, exStd⟩ (.num 2 id)) (fun a => [513, 300, 7, 65000, 2, 301][a]?) 0 6).map
    (fun r => (r.2, (List.range 6).map r.1)) = some (false, [some 2, some 7, some 300, some 301, some 513, some 65000]) := by decide +kernel

/-- The hypotheses of `C42_ska_sort_small` hold for numbers of two bytes. -/
example : ∃ m' ys, skaSort (refSort (Desc.num 2 fun x : Nat => x % 65536).less) (.num 2 fun x : Nat => x % 65536) (fun a => [700, 3, 65000, 256][a]?) 0 4 = some (m', false) ∧
    m'.Seg 0 ys ∧ IsSort (Desc.num 2 fun x : Nat => x % 65536).less [700, 3, 65000, 256] ys := by
  obtain ⟨m', ys, e, s, so, -⟩ := C42_ska_sort_small (d := .num 2 (fun x : Nat => x % 65536)) ⟨.inr rfl, fun x => Nat.mod_lt _ (by omega)⟩ trivial trivial (refSort_sorts (Desc.less_strictWeak _))
    (m := fun a => [700, 3, 65000, 256][a]?) (first := 0) (xs := [700, 3, 65000, 256]) (fun i hi => by rw [Nat.zero_add]; exact List.getElem?_eq_getElem hi) (by simp)
  exact ⟨m', ys, e, s, so⟩

/-- The hypotheses hold for a tuple of a boolean, a string and a number. -/
def exKey : Desc (Bool × List Nat × Nat) := .tuple 3 fun i =>
  if i = 0 then .bool (fun p => p.1) else if i = 1 then .list none (fun p => p.2.1.length) fun j => .num 1 fun p => p.2.1.getD j 0 % 256 else .num 4 fun p => p.2.2 % 2 ^ 32

example : exKey.WF ∧ exKey.NonEmpty ∧ exKey.Plain := by
  refine ⟨fun i => ?_, ⟨by omega, fun i => ?_⟩, fun i => ?_⟩
  · match i with
    | 0 => trivial
    | 1 => exact ⟨fun n h => (by cases h), fun j => ⟨.inl rfl, fun x => by simpa using Nat.mod_lt _ (by omega)⟩⟩
    | i + 2 => exact ⟨.inr rfl, fun x => Nat.mod_lt _ (by omega)⟩
  · match i with
    | 0 => trivial
    | 1 => exact fun j => trivial
    | i + 2 => trivial
  · match i with
    | 0 => trivial
    | 1 => exact fun j => ⟨trivial, rfl⟩
    | i + 2 => trivial

/-- A key of booleans and a byte. -/
example : SafeChain (Desc.tuple 2 fun i => if i = 0 then .bool (fun p : Bool × Nat => p.1) else .num 1 fun p => p.2 % 256).chain := by
  refine ⟨?_, ?_, trivial⟩ <;> simp [Desc.SafeAt]

end Verif.Algo
