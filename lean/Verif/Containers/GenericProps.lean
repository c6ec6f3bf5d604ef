import Verif.Containers.CellProps

/-!
# The generic operations do what the specification says

For every container that satisfies `Lawful`: from an object holding `xs`, every operation
ends as the specification says, the object then holds exactly the specified elements in its
first slots and nothing else is alive, and no other heap block is touched (`Frame`).
-/

namespace Verif.Containers

open Verif Impl

variable {V O : Type} {I : Impl V O} {mn : Nat} {mkA : Bool} {L : Lawful I mn mkA}

/-- The configuration of a container type. -/
def Lawful.cfg (_ : Lawful I mn mkA) : Cfg := ⟨mn, I.mx, mkA, I.reservable⟩

namespace Lawful

theorem View.modify {h : Heap V} {o : O} {cap n : Nat} {c c' : Cells V} {f : Nat → Cells V → Option (Cells V)}
    (v : L.View h o cap c n) (hf : f cap c = some c') :
    ∃ h' o', I.modify h o f = some (h', o') ∧ L.View h' o' cap c' n ∧ I.own o' = I.own o ∧
      Frame (I.own o) h (I.own o') h' := by
  have := v.put c'
  refine ⟨_, _, ?_, this.1, this.2.1, this.2.2⟩
  simp only [Impl.modify, v.2.1, hf, Option.map_some]

theorem View.finish {h : Heap V} {o : O} {cap n n' : Nat} {c : Cells V}
    (v : L.View h o cap c n) (hn : n' ≤ cap) :
    ∃ o', I.finish (some (h, o)) n' = .ok (h, o') ∧ L.View h o' cap c n' ∧ I.own o' = I.own o := by
  obtain ⟨o', e, v', e2⟩ := v.setSize hn
  exact ⟨o', by simp only [Impl.finish, e], v', e2⟩

theorem View.copyAt {h : Heap V} {o : O} {cap n pos : Nat} {c : Cells V} {src : List (Item V)}
    (v : L.View h o cap c n) (hc : pos + src.length ≤ cap)
    (hr : ∀ j, pos ≤ j → j < pos + src.length → c j = none) :
    ∃ h' o', I.copyAt h o pos src = Out.of (!noThrow src) (h', o') ∧
      L.View h' o' cap (if noThrow src then written c pos (vals src) else c) n ∧ I.own o' = I.own o ∧
      Frame (I.own o) h (I.own o') h' := by
  cases hn : noThrow src
  · have := v.put c
    refine ⟨_, _, ?_, this.1, this.2.1, this.2.2⟩
    simp only [Impl.copyAt, v.2.1, uninitCopy_exn hn hc hr]; rfl
  · have := v.put (written c pos (vals src))
    refine ⟨_, _, ?_, this.1, this.2.1, this.2.2⟩
    simp only [Impl.copyAt, v.2.1, uninitCopy_ok hn hc hr]; rfl

/-! ### An object and a temporary -/

/-- Two objects that do not share storage. -/
structure Two (L : Lawful I mn mkA) (h : Heap V) (o t : O) (cap : Nat) (c : Cells V) (n : Nat)
    (cap' : Nat) (c' : Cells V) (n' : Nat) : Prop where
  vo : L.View h o cap c n
  vt : L.View h t cap' c' n'
  apart : I.Apart t o

/-- The blocks of both. -/
def both (I : Impl V O) (t o : O) : Nat → Prop := fun b => I.own t b ∨ I.own o b

theorem mkTemp {h : Heap V} {o : O} {cap n : Nat} {c : Cells V} (v : L.View h o cap c n) (hf : Fresh h)
    {f : Bool} (ha : (mkA && f) = false) :
    ∃ h' t, I.new h f = .ok (h', t) ∧ Two L h' o t cap c n mn (fun _ => none) 0 ∧
      Frame (I.own o) h (both I t o) h' ∧ (mn = 0 → I.ptr t = none) := by
  obtain ⟨h', t, e, w, m, s, fr, hnul⟩ := L.mk_ok hf ha
  refine ⟨h', t, e, ⟨v.keep fr (fun _ _ => id), ⟨w, m, s⟩, v.apart fr (fun _ _ => id)⟩, ?_, hnul⟩
  exact (fr.more (I.own o)).congr (fun b => by simp) (fun b => Iff.rfl)

/-- A step on the temporary. -/
theorem Two.stepT {h h' : Heap V} {o t t' : O} {cap n cap' n' cap'' n'' : Nat} {c c' c'' : Cells V}
    (w : Two L h o t cap c n cap' c' n') (v : L.View h' t' cap'' c'' n'')
    (fr : Frame (I.own t) h (I.own t') h') :
    Two L h' o t' cap c n cap'' c'' n'' ∧ Frame (both I t o) h (both I t' o) h' :=
  ⟨⟨w.vo.keep fr (fun b h1 h2 => w.apart b h2 h1), v, w.vo.apart fr (fun b h1 h2 => w.apart b h2 h1)⟩,
    fr.more (I.own o)⟩

theorem Two.reserve {h : Heap V} {o t : O} {cap n : Nat} {c : Cells V}
    (w : Two L h o t cap c n mn (fun _ => none) 0) (hf : Fresh h) (hr : I.reservable = true) {m : Nat}
    (h1 : mn < m) (h2 : m ≤ I.mx) :
    I.reserve h t m true = .exn (h, t) ∧
    ∃ h' t', I.reserve h t m false = .ok (h', t') ∧ Two L h' o t' cap c n m (fun _ => none) 0 ∧
      Frame (both I t o) h (both I t' o) h' := by
  refine ⟨L.reserve_exn hr w.vt.1 (by rw [w.vt.2.1]; exact h1) h2, ?_⟩
  obtain ⟨h', t', e, wf, m', s, fr⟩ := L.reserve_ok (xs := []) hr hf w.vt.1
    (by rw [w.vt.2.1]; simp) (by rw [w.vt.2.2]; rfl) (by simp) (by rw [w.vt.2.1]; exact h1) h2
  have := w.stepT (t' := t') (cap'' := m) (c'' := fun _ => none) (n'' := 0) ⟨wf, by rw [m']; simp, s⟩ fr
  exact ⟨h', t', e, this.1, this.2⟩

theorem Two.fail {h : Heap V} {o t : O} {cap n cap' : Nat} {c : Cells V}
    (w : Two L h o t cap c n cap' (fun _ => none) 0) :
    ∃ h', I.failTemp h t o = .exn (h', o) ∧ L.View h' o cap c n ∧ Frame (both I t o) h (I.own o) h' := by
  obtain ⟨h', e, fr⟩ := L.dtor_law (xs := []) w.vt.1 (by rw [w.vt.2.1]; simp) (by rw [w.vt.2.2]; rfl) (by simp)
  refine ⟨h', by simp only [failTemp, e], w.vo.keep fr (fun b h1 h2 => w.apart b h2 h1), ?_⟩
  exact (fr.more (I.own o)).congr (fun b => Iff.rfl) (fun b => by simp)

theorem Two.modifyT {h : Heap V} {o t : O} {cap n cap' n' : Nat} {c c' c'' : Cells V}
    {f : Nat → Cells V → Option (Cells V)}
    (w : Two L h o t cap c n cap' c' n') (hf : f cap' c' = some c'') :
    ∃ h' t', I.modify h t f = some (h', t') ∧ Two L h' o t' cap c n cap' c'' n' ∧
      Frame (both I t o) h (both I t' o) h' := by
  obtain ⟨h', t', e, v, _, fr⟩ := w.vt.modify hf
  have := w.stepT v fr
  exact ⟨h', t', e, this.1, this.2⟩

theorem Two.copyT {h : Heap V} {o t : O} {cap n cap' n' pos : Nat} {c c' : Cells V} {src : List (Item V)}
    (w : Two L h o t cap c n cap' c' n') (hc : pos + src.length ≤ cap')
    (hr : ∀ j, pos ≤ j → j < pos + src.length → c' j = none) :
    ∃ h' t', I.copyAt h t pos src = Out.of (!noThrow src) (h', t') ∧
      Two L h' o t' cap c n cap' (if noThrow src then written c' pos (vals src) else c') n' ∧
      Frame (both I t o) h (both I t' o) h' := by
  obtain ⟨h', t', e, v, _, fr⟩ := w.vt.copyAt hc hr
  have := w.stepT v fr
  exact ⟨h', t', e, this.1, this.2⟩

theorem Two.reloc {h : Heap V} {o t : O} {cap n cap' n' src dst : Nat} {c c' : Cells V} (xs : List V)
    (w : Two L h o t cap c n cap' c' n') (h1 : src + xs.length ≤ cap) (h2 : dst + xs.length ≤ cap')
    (h3 : ∀ j (h : j < xs.length), c (src + j) = some xs[j])
    (h4 : ∀ j, dst ≤ j → j < dst + xs.length → c' j = none) :
    ∃ h' o' t', I.relocInto h o t src dst xs.length = some (h', o', t') ∧
      Two L h' o' t' cap (cleared c src xs.length) n cap' (written c' dst xs) n' ∧
      Frame (both I t o) h (both I t' o') h' ∧ I.own t' = I.own t := by
  have hne : ¬(I.ptr o = I.ptr t ∧ (I.ptr o).isSome) := by
    rintro ⟨e, hs⟩
    obtain ⟨b, hb⟩ := Option.isSome_iff_exists.1 hs
    exact w.apart b (by simp [own, ← e, hb]) hb
  obtain ⟨v1, e1, f1⟩ := w.vo.put (cleared c src xs.length)
  have vt1 : L.View (I.put h o (cleared c src xs.length)).1 t cap' c' n' := w.vt.keep f1 w.apart
  obtain ⟨v2, e2, f2⟩ := vt1.put (written c' dst xs)
  have ha : ∀ b, I.own (I.put h o (cleared c src xs.length)).2 b → ¬ I.own t b := by
    rw [e1]; exact fun b h1 h2 => w.apart b h2 h1
  refine ⟨_, _, _, ?_, ⟨v1.keep f2 ha, v2, ?_⟩, ?_, e2⟩
  · simp only [relocInto]
    rw [if_neg hne, w.vo.2.1, w.vt.2.1]
    simp only [relocTo_eq cap cap' xs c c' src dst h1 h2 h3 h4]
  · intro b h1 h2
    rw [e2] at h1; rw [e1] at h2; exact w.apart b h1 h2
  · have g1 := (f1.more (I.own t)).congr (K := both I t o)
      (K' := fun b => I.own t b ∨ I.own (I.put h o (cleared c src xs.length)).2 b)
      (fun b => Or.comm) (fun b => Or.comm)
    exact g1.trans (f2.more _)

theorem Two.takeOver {h : Heap V} {o t : O} {cap n cap' n' : Nat} {c' : Cells V}
    (w : Two L h o t cap (fun _ => none) n cap' c' n') (hr : I.reservable = true)
    (hm : mn < cap' ∨ ∃ xs : List V, c' = cells xs ∧ n' = xs.length ∧ xs.length ≤ cap') :
    ∃ h' o', I.takeOver h o t = some (h', o') ∧ L.View h' o' cap' c' n' ∧
      Frame (both I t o) h (I.own o') h' ∧ I.ptr o' = I.ptr t := by
  obtain ⟨o1, e1, v1, eo⟩ := w.vo.setSize (n' := 0) (by omega)
  obtain ⟨h', o', t', e2, wf, hm', hs, hd, hpt, fr⟩ := L.move_law hr v1.1 w.vt.1
    (fun b h1 h2 => w.apart b h2 (by rw [← eo]; exact h1)) (by rw [v1.2.1]) v1.2.2 (by
      rw [w.vt.2.1, w.vt.2.2]
      rcases hm with hm | ⟨xs, h1, h2, h3⟩
      · exact .inl hm
      · exact .inr ⟨xs, h1, h2, h3⟩)
  refine ⟨h', o', ?_, ⟨wf, by rw [hm', w.vt.2.1], by rw [hs, w.vt.2.2]⟩, ?_, hpt⟩
  · simp only [Impl.takeOver, e1, e2, hd, Option.map_some]
  · exact fr.congr (fun b => by rw [eo]; exact Or.comm) (fun b => Iff.rfl)

/-! ### The operations -/

/-- An operation that leaves the capacity as it was leaves the elements in the storage they were
in (so `data()` is the same as before), and one that gives up all the capacity gives up the
block. -/
def PtrRule (I : Impl V O) (h : Heap V) (o o' : O) (cap' : Nat) : Prop :=
  (cap' = (I.mem h o).1 → I.ptr o' = I.ptr o) ∧ (cap' = 0 → (I.mem h o).1 ≠ 0 → I.ptr o' = none)

/-- The operation ends as specified, and the object then holds exactly the specified elements. -/
def Good (L : Lawful I mn mkA) (h : Heap V) (o : O) (r : Out (Heap V × O)) (s : SV V × Bool) : Prop :=
  ∃ h' o', r = Out.of s.2 (h', o') ∧ L.Rep h' o' s.1.1 s.1.2 ∧ Frame (I.own o) h (I.own o') h' ∧
    PtrRule I h o o' s.1.2

theorem ptr_of_own {o o' : O} (e : I.own o' = I.own o) : I.ptr o' = I.ptr o := by
  cases h : I.ptr o with
  | none =>
    cases h' : I.ptr o' with
    | none => rfl
    | some b =>
      have := congrFun e b
      simp [Impl.own, h, h'] at this
  | some b =>
    have := congrFun e b
    simpa [Impl.own, h] using this

theorem rule_same {h : Heap V} {o o' : O} {xs : List V} {cap : Nat} (r : L.Rep h o xs cap)
    (e : I.own o' = I.own o) : PtrRule I h o o' cap := by
  refine ⟨fun _ => ptr_of_own e, fun h0 h1 => absurd h0 ?_⟩
  rwa [show I.mem h o = (cap, fun k => xs[k]?) from r.1.2.1] at h1

theorem rule_from {h h1 : Heap V} {o o1 o' : O} {xs ys : List V} {cap cap' : Nat} (r : L.Rep h o xs cap)
    (r1 : L.Rep h1 o1 ys cap) (e : I.own o1 = I.own o) (p : PtrRule I h1 o1 o' cap') : PtrRule I h o o' cap' := by
  unfold PtrRule at p ⊢
  rw [show I.mem h1 o1 = (cap, fun k => ys[k]?) from r1.1.2.1, ptr_of_own e] at p
  rw [show I.mem h o = (cap, fun k => xs[k]?) from r.1.2.1]
  exact p

/-- Two operations, the first of which keeps the capacity. -/
theorem rule_trans {h h1 : Heap V} {o o1 o' : O} {xs ys : List V} {cap cap' : Nat} (r : L.Rep h o xs cap)
    (r1 : L.Rep h1 o1 ys cap) (q : PtrRule I h o o1 cap) (p : PtrRule I h1 o1 o' cap') : PtrRule I h o o' cap' := by
  unfold PtrRule at p q ⊢
  rw [show I.mem h1 o1 = (cap, fun k => ys[k]?) from r1.1.2.1] at p
  rw [show I.mem h o = (cap, fun k => xs[k]?) from r.1.2.1] at q ⊢
  rw [q.1 rfl] at p
  exact p

theorem rule_grow {h : Heap V} {o o' : O} {xs : List V} {cap cap' : Nat} (r : L.Rep h o xs cap) (h0 : cap < cap') :
    PtrRule I h o o' cap' := by
  unfold PtrRule
  rw [show I.mem h o = (cap, fun k => xs[k]?) from r.1.2.1]
  exact ⟨fun e => absurd e (by simp only; omega), fun e => absurd e (by omega)⟩

theorem good_same {h : Heap V} {o : O} {xs : List V} {cap : Nat} (r : L.Rep h o xs cap) (b : Bool) :
    Good L h o (Out.of b (h, o)) ((xs, cap), b) := ⟨h, o, rfl, r, Frame.refl _ _, rule_same r rfl⟩

theorem Rep.mem {h : Heap V} {o : O} {xs : List V} {cap : Nat} (r : L.Rep h o xs cap) :
    I.mem h o = (cap, cells xs) := r.1.2.1

theorem Rep.view {h : Heap V} {o : O} {xs : List V} {cap : Nat} (r : L.Rep h o xs cap) :
    L.View h o cap (cells xs) xs.length := r.1

theorem rep_of {h : Heap V} {o : O} {xs : List V} {cap : Nat} {c : Cells V} {n : Nat}
    (v : L.View h o cap c n) (hc : c = cells xs) (hn : n = xs.length) (hl : xs.length ≤ cap) :
    L.Rep h o xs cap := by subst hc hn; exact ⟨v, hl⟩

/-- Change the slots, then set the size. -/
theorem good_modify {h : Heap V} {o : O} {xs ys : List V} {cap : Nat} (r : L.Rep h o xs cap)
    {f : Nat → Cells V → Option (Cells V)} (hf : f cap (cells xs) = some (cells ys)) (hl : ys.length ≤ cap) :
    Good L h o (I.finish (I.modify h o f) ys.length) ((ys, cap), false) := by
  obtain ⟨h', o', e, v, eo, fr⟩ := r.view.modify hf
  obtain ⟨o2, e2, v2, e3⟩ := v.finish (n' := ys.length) hl
  refine ⟨h', o2, by rw [e, e2]; rfl, rep_of v2 rfl rfl hl, ?_, rule_same r (e3.trans eo)⟩
  rw [e3]; exact fr

theorem good_clear {h : Heap V} {o : O} {xs : List V} {cap : Nat} (r : L.Rep h o xs cap) :
    Good L h o (I.clear h o) (([], cap), false) := by
  have := good_modify (ys := []) r (f := fun cap m => destroyRange cap m 0 (I.size o)) (by
    rw [r.1.2.2, destroyRange_eq cap _ _ _ (by have := r.2; omega) (fun j _ g => cells_live (by omega))]
    have := cleared_cells xs 0 (by omega)
    simpa using this) (by simp)
  simpa only [Impl.clear, List.length_nil] using this

theorem good_eraseToEnd {h : Heap V} {o : O} {xs : List V} {cap k : Nat} (r : L.Rep h o xs cap)
    (hk : k ≤ xs.length) : Good L h o (I.eraseToEnd h o k) ((xs.take k, cap), false) := by
  have hs := r.1.2.2
  have hl : (xs.take k).length = k := by simp [hk]
  have := good_modify (ys := xs.take k) r (f := fun cap m => destroyRange cap m k (I.size o - k)) (by
    rw [hs, destroyRange_eq cap _ _ _ (by have := r.2; omega) (fun j _ g => cells_live (by omega))]
    rw [cleared_cells xs k hk]) (by have := r.2; omega)
  rw [hl] at this
  simpa only [Impl.eraseToEnd, hs, if_neg (Nat.not_lt.2 hk)] using this

theorem good_pop {h : Heap V} {o : O} {xs : List V} {cap : Nat} (r : L.Rep h o xs cap)
    (hne : xs ≠ []) : Good L h o (I.popBack h o) ((xs.dropLast, cap), false) := by
  have hs := r.1.2.2
  have hp : 0 < xs.length := List.length_pos_iff.2 hne
  have := good_modify (ys := xs.dropLast) r (f := fun cap m => destroy cap m (I.size o - 1)) (by
    rw [hs, destroy_eq (by have := r.2; omega) (cells_live (by omega))]
    congr 1; funext j
    simp only [upd, cells, List.dropLast_eq_take, List.getElem?_take]
    by_cases h1 : j = xs.length - 1
    · rw [if_pos h1, if_neg (by omega)]
    · rw [if_neg h1]
      by_cases h2 : j < xs.length - 1
      · rw [if_pos h2]
      · rw [if_neg h2, List.getElem?_eq_none (by omega)]) (by have := r.2; simp; omega)
  rw [List.length_dropLast] at this
  simp only [Impl.popBack, hs, if_neg (by omega : ¬ xs.length = 0)]
  simpa only [hs] using this

theorem good_erase {h : Heap V} {o : O} {xs : List V} {cap a b : Nat} (r : L.Rep h o xs cap)
    (hab : a ≤ b) (hb : b ≤ xs.length) :
    Good L h o (I.erase h o a b) ((xs.take a ++ xs.drop b, cap), false) := by
  have hs := r.1.2.2
  have hl : (xs.take a ++ xs.drop b).length = xs.length - (b - a) := by simp; omega
  by_cases he : a = b
  · subst he
    simp only [Impl.erase, if_true, List.take_append_drop]
    exact good_same r false
  · have := good_modify (ys := xs.take a ++ xs.drop b) r (f := eraseCells a b (I.size o)) (by
      rw [hs]; exact eraseCells_eq xs a b cap (by omega) hb r.2) (by have := r.2; omega)
    rw [hl] at this
    simp only [Impl.erase, if_neg he, hs, if_neg (show ¬¬(a < b ∧ b ≤ xs.length) by omega)]
    simpa only [hs] using this

theorem good_eraseIf {h : Heap V} {o : O} {xs : List V} {cap : Nat} (r : L.Rep h o xs cap)
    (p : V → Bool) (mv : V → V) :
    ∃ h' o', I.eraseIf h o p mv = .ok ((h', o'), (xs.filter (fun v => !p v)).length - xs.findIdx p) ∧
      L.Rep h' o' (xs.filter (fun v => !p v)) cap ∧ Frame (I.own o) h (I.own o') h' ∧ PtrRule I h o o' cap := by
  have hs := r.1.2.2
  have hc := r.2
  simp only [Impl.eraseIf, r.mem, hs]
  rw [findIfCells_eq p cap xs hc xs.length 0 (by omega)]
  simp only [Nat.zero_add, List.drop_zero]
  have hle : xs.findIdx p ≤ xs.length := List.findIdx_le_length
  have hpre : (xs.take (xs.findIdx p)).filter (fun v => !p v) = xs.take (xs.findIdx p) := by
    rw [List.filter_eq_self]
    intro v hv
    obtain ⟨i, hi, rfl⟩ := List.mem_iff_getElem.1 hv
    simp only [List.length_take] at hi
    have := List.not_of_lt_findIdx (p := p) (xs := xs) (i := i) (by omega)
    simpa using this
  by_cases hk : xs.findIdx p = xs.length
  · rw [if_pos hk]
    have e : xs.filter (fun v => !p v) = xs := by
      rw [hk, List.take_length] at hpre; exact hpre
    rw [e, hk, Nat.sub_self]
    exact ⟨h, o, rfl, r, Frame.refl _ _, rule_same r rfl⟩
  · rw [if_neg hk]
    have hlt : xs.findIdx p < xs.length := by omega
    generalize hkk : xs.findIdx p = k at *
    have hpk : p xs[k] = true := by
      have := List.findIdx_getElem (p := p) (xs := xs) (w := by rw [hkk]; exact hlt)
      simpa only [hkk] using this
    obtain ⟨J', e1, e2⟩ := eraseIfLoop_eq p mv cap (xs.drop (k + 1)) (xs.take k) [xs[k]] 0 (by simp)
      (by simp; omega)
    have hx : xs.take k ++ [xs[k]] ++ xs.drop (k + 1) = xs := by
      rw [List.append_assoc, List.singleton_append, ← List.drop_eq_getElem_cons hlt, List.take_append_drop]
    have hkl : (xs.take k).length = k := by simp; omega
    have hf : xs.filter (fun v => !p v) = xs.take k ++ (xs.drop (k + 1)).filter (fun v => !p v) := by
      conv => lhs; rw [← hx]
      rw [List.filter_append, List.filter_append, hpre]
      simp [hpk]
    rw [hx, hkl, List.length_drop, List.length_singleton] at e1
    rw [e1]
    simp only
    rw [hx] at e2
    rw [← hf] at e2 ⊢
    have hlen : k + ((xs.drop (k + 1)).filter (fun v => !p v)).length = (xs.filter (fun v => !p v)).length := by
      rw [hf, List.length_append, hkl]
    have v := r.view.put (cells (xs.filter (fun v => !p v) ++ J'))
    have r2 : L.Rep _ _ (xs.filter (fun v => !p v) ++ J') cap := rep_of v.1 rfl e2.symm (by omega)
    obtain ⟨h', o', e3, r3, f3, pr⟩ := good_eraseToEnd (k := (xs.filter (fun v => !p v)).length) r2 (by simp)
    rw [hlen, e3]
    refine ⟨h', o', ?_, ?_, v.2.2.trans f3, rule_from r r2 v.2.1 pr⟩
    · simp only [Out.of_false, Out.ok.injEq, Prod.mk.injEq, true_and]; omega
    · simpa using r3

theorem good_copyEnd {h : Heap V} {o : O} {xs : List V} {cap : Nat} (r : L.Rep h o xs cap) (src : List (Item V))
    (hroom : xs.length + src.length ≤ cap) :
    Good L h o (match I.copyAt h o (I.size o) src with
      | .ub => .ub
      | .exn r => .exn r
      | .ok r => I.finish (some r) (I.size o + src.length))
      (if noThrow src then ((xs ++ vals src, cap), false) else ((xs, cap), true)) := by
  have hs := r.1.2.2
  obtain ⟨h', o', e, v, e2, fr⟩ := r.view.copyAt (pos := I.size o) (src := src) (by omega)
    (fun j g1 g2 => cells_raw (by omega))
  rw [e, hs]
  cases hn : noThrow src
  · rw [hn] at v
    exact ⟨h', o', rfl, rep_of v rfl rfl r.2, fr, rule_same r e2⟩
  · rw [hn] at v
    simp only [if_true, hs, written_cells] at v
    obtain ⟨o2, e3, v2, e4⟩ := v.finish (n' := xs.length + src.length) hroom
    refine ⟨h', o2, e3, rep_of v2 rfl (by simp) (by simpa using hroom), ?_, rule_same r (e4.trans e2)⟩
    rw [e4]; exact fr

/-- `exponential_force_reserve` on the temporary. -/
theorem Two.expForce {h : Heap V} {o t : O} {cap n : Nat} {c : Cells V}
    (w : Two L h o t cap c n mn (fun _ => none) 0) (hf : Fresh h) (hr : I.reservable = true) {m : Nat}
    (h1 : cap < m) (f : Bool) :
    ((decide (I.mx < max m (2 * cap)) || f) = true → I.expForceReserve h t cap m f = .exn (h, t)) ∧
    ((decide (I.mx < max m (2 * cap)) || f) = false →
      ∃ h' t', I.expForceReserve h t cap m f = .ok (h', t') ∧
        Two L h' o t' cap c n (max m (2 * cap)) (fun _ => none) 0 ∧
        Frame (both I t o) h (both I t' o) h') := by
  have hmn : mn ≤ cap := w.vo.range.1
  simp only [Impl.expForceReserve, w.vt.cap, if_neg (Nat.not_lt.2 hmn), reallocationSize, Nat.mul_comm cap 2]
  by_cases hx : I.mx < max m (2 * cap)
  · simp [hx]
  · simp only [hx, if_false, decide_false, Bool.false_or]
    have := w.reserve hf hr (m := max m (2 * cap)) (by omega) (by omega)
    constructor
    · rintro rfl; exact this.1
    · rintro rfl; exact this.2

theorem good_append {h : Heap V} {o : O} {xs : List V} {cap : Nat} (r : L.Rep h o xs cap) (hf : Fresh h)
    (src : List (Item V)) (al : Nat → Bool) (hp : appendPre L.cfg (xs, cap) src.length) :
    Good L h o (I.append h o src al)
      (specInsert L.cfg (xs, cap) xs.length (src.map (·.val)) (!src.any (·.throws)) al) := by
  have hs := r.1.2.2
  have e0 : src.map (·.val) = vals src := rfl
  have e1 : (!src.any (·.throws)) = noThrow src := rfl
  rw [e0, e1]
  have hspec : ∀ b, (xs.take xs.length ++ b ++ xs.drop xs.length) = xs ++ b := by intro b; simp
  simp only [Impl.append, r.view.cap, specInsert, Lawful.cfg, hspec, vals_length]
  rcases Bool.eq_false_or_eq_true I.reservable with hr | hr
  · simp only [hr, if_true, Bool.not_true, Bool.false_or]
    by_cases hroom : xs.length + src.length ≤ cap
    · rw [if_pos (by omega), if_pos hroom]
      exact good_copyEnd r src hroom
    · rw [if_neg (by omega), if_neg hroom]
      cases ha : (mkA && al 0)
      rotate_left
      · have ha' : mkA = true ∧ al 0 = true := by simpa using ha
        rw [ha'.2, L.mk_exn ha'.1]
        exact good_same r true
      · obtain ⟨h1, t, e2, w, f1, _⟩ := mkTemp r.view hf ha
        rw [e2]
        simp only [Bool.false_or]
        have hf1 := f1.fresh hf
        obtain ⟨g1, g2⟩ := w.expForce hf1 hr (m := I.size o + src.length) (by omega) (al 1)
        rw [hs] at g1 g2 ⊢
        cases hx : (decide (I.mx < max (xs.length + src.length) (2 * cap)) || al 1)
        rotate_left
        · rw [g1 hx]
          simp only [Bool.true_or, if_true]
          obtain ⟨h2, e3, v, f2⟩ := w.fail
          rw [e3]
          exact ⟨h2, o, rfl, rep_of v rfl rfl r.2, f1.trans f2, rule_same r rfl⟩
        · obtain ⟨h2, t2, e3, w2, f2⟩ := g2 hx
          rw [e3]
          simp only [Bool.false_or]
          obtain ⟨h3, t3, e4, w3, f3⟩ := w2.copyT (pos := xs.length) (src := src) (by omega) (fun _ _ _ => rfl)
          rw [e4]
          cases hn : noThrow src
          · simp only [hn, Bool.false_eq_true, if_false] at w3
            obtain ⟨h4, e5, v, f4⟩ := w3.fail
            simp only [Bool.not_false, Out.of_true, e5, if_true]
            exact ⟨h4, o, rfl, rep_of v rfl rfl r.2, ((f1.trans f2).trans f3).trans f4, rule_same r rfl⟩
          · simp only [hn, if_true] at w3
            simp only [Bool.not_true, Out.of_false, Bool.false_eq_true, if_false]
            obtain ⟨h4, o4, t4, e5, w4, f4, _⟩ := w3.reloc xs (src := 0) (dst := 0) (by have := r.2; omega)
              (by omega) (by intro j hj; simp [cells, hj]) (by
                intro j _ g; simp only [written, vals_length]; rw [if_neg (by omega)])
            simp only [e5]
            rw [show cleared (cells xs) 0 xs.length = fun _ => none by
              have := cleared_cells xs 0 (by omega); simpa [cells_nil] using this,
              written_front] at w4
            obtain ⟨h5, o5, e6, v5, f5, _⟩ := w4.takeOver hr (.inl (by have := r.view.range; omega))
            rw [e6]
            obtain ⟨o6, e7, v6, e8⟩ := v5.finish (n' := xs.length + src.length) (by omega)
            refine ⟨h5, o6, e7, rep_of v6 rfl (by simp) (by simp; omega), ?_, rule_grow r (by simp only; omega)⟩
            rw [e8]; exact (((f1.trans f2).trans f3).trans f4).trans f5
  · simp only [hr, Bool.false_eq_true, if_false, Bool.not_false, Bool.true_or, if_true]
    have hp' : xs.length + src.length ≤ cap ∨ cap < src.length := hp hr
    by_cases hroom : xs.length + src.length ≤ cap
    · rw [if_neg (by omega), if_pos hroom]
      exact good_copyEnd r src hroom
    · rw [if_pos (by omega), if_neg hroom]
      exact good_same r true

theorem good_push {h : Heap V} {o : O} {xs : List V} {cap : Nat} (r : L.Rep h o xs cap) (hf : Fresh h)
    (c : PSrc V) (v : V) (t : Bool) (al : Nat → Bool) (hp : pushPre L.cfg (xs, cap))
    (hc : c = .lit v t ∨ ∃ k, c = .self k t ∧ xs[k]? = some v) :
    Good L h o (I.pushBack h o c al) (specPush L.cfg (xs, cap) v t al) := by
  have hs := r.1.2.2
  have heval : ∀ {h' : Heap V}, L.View h' o cap (cells xs) xs.length → c.eval (I.mem h' o) = some (v, t) := by
    intro h' vw
    rcases hc with rfl | ⟨k, rfl, hk⟩
    · rfl
    · obtain ⟨hk1, hk2⟩ := List.getElem?_eq_some_iff.1 hk
      have := r.2
      simp only [PSrc.eval, vw.2.1, readCell, cells]
      rw [if_pos (by omega), hk]; rfl
  simp only [Impl.pushBack, specPush, Lawful.cfg]
  by_cases hmx : I.mx = 0
  · rw [if_pos hmx, if_pos hmx]; exact good_same r true
  · rw [if_neg hmx, if_neg hmx, r.view.cap]
    simp only [hs]
    by_cases hroom : xs.length < cap
    · rw [if_pos hroom, if_pos hroom]
      simp only [Impl.pushInto, heval r.view]
      cases t
      · have := good_modify (ys := xs ++ [v]) r (f := fun cap m => construct cap m (I.size o) v) (by
          rw [hs, construct_eq hroom (cells_raw (by omega)), upd_cells_end]) (by simp; omega)
        simpa [hs] using this
      · exact good_same r true
    · rw [if_neg hroom, if_neg hroom]
      rcases Bool.eq_false_or_eq_true I.reservable with hr | hr
      · simp only [hr, if_true, Bool.not_true, Bool.false_or]
        have hp' : max 1 (2 * cap) ≤ I.mx := hp hmx (by have := r.2; simp only; omega) hr
        cases ha : (mkA && al 0)
        rotate_left
        · have ha' : mkA = true ∧ al 0 = true := by simpa using ha
          rw [ha'.2, L.mk_exn ha'.1]
          exact good_same r true
        · obtain ⟨h1, t1, e2, w, f1, _⟩ := mkTemp r.view hf ha
          rw [e2]
          simp only [Bool.false_or, reallocationSize, Nat.mul_comm cap 2]
          rw [if_neg (Nat.not_lt.2 hp')]
          have hmn := r.view.range
          obtain ⟨g1, h2, t2, g2, w2, f2⟩ := w.reserve (f1.fresh hf) hr (m := max 1 (2 * cap)) (by omega) hp'
          cases hx : al 1
          rotate_left
          · rw [g1]
            obtain ⟨h2, e3, v, f2⟩ := w.fail
            simp only [e3, Bool.true_or, if_true]
            exact ⟨h2, o, rfl, rep_of v rfl rfl r.2, f1.trans f2, rule_same r rfl⟩
          · rw [g2]
            simp only [heval w2.vo, Bool.false_or]
            cases t
            rotate_left
            · obtain ⟨h3, e3, v, f3⟩ := w2.fail
              simp only [e3, if_true]
              exact ⟨h3, o, rfl, rep_of v rfl rfl r.2, (f1.trans f2).trans f3, rule_same r rfl⟩
            · simp only [Bool.false_eq_true, if_false]
              have hr2 := r.2
              obtain ⟨h3, t3, e4, w3, f3⟩ := w2.modifyT (f := fun cap m => construct cap m xs.length v)
                (construct_eq (by omega) rfl)
              simp only [e4]
              obtain ⟨h4, o4, t4, e5, w4, f4, _⟩ := w3.reloc xs (src := 0) (dst := 0) (by omega)
                (by omega) (by intro j hj; simp [cells, hj]) (by
                  intro j _ g; rw [upd_other _ _ (by omega)])
              simp only [e5]
              have hw : upd (fun _ => none) xs.length (some v) = written (fun _ => none) xs.length [v] := by
                funext j; simp only [upd, written, List.length_singleton]
                by_cases hj : j = xs.length
                · subst hj; rw [if_pos rfl, if_pos (by omega)]; simp
                · rw [if_neg hj, if_neg (by omega)]
              rw [show cleared (cells xs) 0 xs.length = fun _ => none by
                have := cleared_cells xs 0 (by omega); simpa [cells_nil] using this, hw,
                written_front] at w4
              obtain ⟨h5, o5, e6, v5, f5, _⟩ := w4.takeOver hr (.inl (by omega))
              rw [e6]
              obtain ⟨o6, e7, v6, e8⟩ := v5.finish (n' := xs.length + 1) (by omega)
              refine ⟨h5, o6, e7, rep_of v6 rfl (by simp) (by simp; omega), ?_, rule_grow r (by simp only; omega)⟩
              rw [e8]; exact (((f1.trans f2).trans f3).trans f4).trans f5
      · simp only [hr, Bool.false_eq_true, if_false, Bool.not_false, Bool.true_or, if_true]
        exact good_same r true

theorem specPush_cap (q : Cfg) (s : SV V) (v : V) (t : Bool) (al : Nat → Bool) :
    s.2 ≤ (specPush q s v t al).1.2 := by
  unfold specPush
  split
  · exact Nat.le_refl _
  · split
    · split <;> exact Nat.le_refl _
    · split
      · exact Nat.le_refl _
      · simp only; omega

theorem specPushes_cap (q : Cfg) : ∀ (src : List (Item V)) (s : SV V) (al : Nat → Bool),
    s.2 ≤ (specPushes q s src al).1.2 := by
  intro src
  induction src with
  | nil => intro s al; exact Nat.le_refl _
  | cons it its ih =>
    intro s al
    have h1 := specPush_cap q s it.val it.throws al
    simp only [specPushes]
    split
    · exact h1
    · exact Nat.le_trans h1 (ih _ _)

theorem rule_push {h h1 : Heap V} {o o1 o' : O} {xs ys : List V} {cap cap1 cap' : Nat} (r : L.Rep h o xs cap)
    (r1 : L.Rep h1 o1 ys cap1) (q : PtrRule I h o o1 cap1) (p : PtrRule I h1 o1 o' cap')
    (g1 : cap ≤ cap1) (g2 : cap1 ≤ cap') : PtrRule I h o o' cap' := by
  unfold PtrRule at p q ⊢
  rw [show I.mem h1 o1 = (cap1, fun k => ys[k]?) from r1.1.2.1] at p
  rw [show I.mem h o = (cap, fun k => xs[k]?) from r.1.2.1] at q ⊢
  simp only at p q ⊢
  exact ⟨fun e => by rw [p.1 (by omega), q.1 (by omega)], fun e h1 => absurd e (by omega)⟩

theorem good_pushes {al : Nat → Bool} : ∀ (src : List (Item V)) (al : Nat → Bool) {h : Heap V} {o : O} {xs : List V} {cap : Nat},
    L.Rep h o xs cap → Fresh h → pushesPre L.cfg (xs, cap) src al →
    Good L h o (I.pushAll h o al src) (specPushes L.cfg (xs, cap) src al) := by
  intro src
  induction src with
  | nil => intro al h o xs cap r _ _; exact good_same r false
  | cons it its ih =>
    intro al h o xs cap r hf hp
    obtain ⟨h1, o1, e1, r1, f1, pr1⟩ := good_push r hf (.lit it.val it.throws) it.val it.throws al hp.1 (.inl rfl)
    simp only [Impl.pushAll, specPushes, e1]
    cases hb : (specPush L.cfg (xs, cap) it.val it.throws al).2
    · simp only [Out.of_false, Bool.false_eq_true, if_false]
      obtain ⟨h2, o2, e2, r2, f2, pr2⟩ := ih (fun k => al (k + 2)) r1 (f1.fresh hf) (hp.2 hb)
      exact ⟨h2, o2, e2, r2, f1.trans f2, rule_push r r1 pr1 pr2 (specPush_cap _ (xs, cap) _ _ _) (specPushes_cap _ _ _ _)⟩
    · simp only [Out.of_true, if_true]
      exact ⟨h1, o1, by rw [hb]; rfl, r1, f1, pr1⟩

theorem good_insert {h : Heap V} {o : O} {xs : List V} {cap k : Nat} (r : L.Rep h o xs cap) (hf : Fresh h)
    (src : List (Item V)) (al : Nat → Bool) (hk : k ≤ xs.length) (hne : src = [] → k = xs.length) :
    Good L h o (I.insert h o k src al)
      (specInsert L.cfg (xs, cap) k (src.map (·.val)) (!src.any (·.throws)) al) := by
  have hs := r.1.2.2
  have hr2 := r.2
  have e0 : src.map (·.val) = vals src := rfl
  have e1 : (!src.any (·.throws)) = noThrow src := rfl
  rw [e0, e1]
  simp only [Impl.insert, hs, r.view.cap, specInsert, Lawful.cfg, vals_length]
  rw [if_neg (Nat.not_lt.2 hk)]
  by_cases hroom : xs.length + src.length ≤ cap
  · rw [if_pos hroom, if_pos hroom]
    simp only [Impl.insertInPlace, hs]
    have hback : relocBack cap (cells xs) xs.length (xs.length + src.length) (xs.length - k) =
        some (shifted (cells xs) k (k + src.length) (xs.length - k)) := by
      by_cases h0 : src = []
      · have := hne h0; subst this
        simp only [Nat.sub_self, relocBack, Option.some.injEq]
        funext j; simp only [shifted]; rw [if_neg (by omega), if_neg (by omega)]
      · have hpos : 0 < src.length := List.length_pos_iff.2 h0
        have := relocBack_eq cap (xs.length - k) (cells xs) k (k + src.length) (by omega) (by omega)
          (fun j _ g => cells_live (by omega)) (fun j g _ _ => cells_raw (by omega))
        rwa [show k + (xs.length - k) = xs.length by omega,
          show k + src.length + (xs.length - k) = xs.length + src.length by omega] at this
    obtain ⟨h1, o1, e2, v1, eo1, f1⟩ := r.view.modify (f := fun cap m =>
      relocBack cap m xs.length (xs.length + src.length) (xs.length - k)) hback
    rw [e2]
    simp only
    obtain ⟨h2, o2, e3, v2, eo2, f2⟩ := v1.copyAt (pos := k) (src := src) (by omega) (by
      intro j g1 g2
      simp only [shifted]
      rw [if_neg (by omega)]
      by_cases g3 : k ≤ j ∧ j < k + (xs.length - k)
      · rw [if_pos g3]
      · rw [if_neg g3]; exact cells_raw (by omega))
    rw [e3]
    cases hn : noThrow src
    · have hpos : 0 < src.length := by
        rcases src with _ | ⟨a, b⟩
        · simp [noThrow] at hn
        · simp
      rw [hn] at v2
      simp only [Bool.false_eq_true, if_false] at v2
      obtain ⟨h3, o3, e4, v3, eo3, f3⟩ := v2.modify (f := fun cap m => relocFwd cap m (k + src.length) k (xs.length - k))
        (c' := cells xs) (by
          rw [relocFwd_eq cap _ _ _ _ (by omega) (by omega)]
          · rw [shifted_back xs k src.length hk hpos]
          · intro j g1 g2
            simp only [shifted]; rw [if_pos (by omega)]; exact cells_live (by omega)
          · intro j g1 g2 g3
            simp only [shifted]
            rw [if_neg (by omega)]
            by_cases g4 : k ≤ j ∧ j < k + (xs.length - k)
            · rw [if_pos g4]
            · rw [if_neg g4]; exact cells_raw (by omega))
      simp only [Bool.not_false, Out.of_true, e4]
      exact ⟨h3, o3, rfl, rep_of v3 rfl rfl hr2, (f1.trans f2).trans f3, rule_same r (eo3.trans (eo2.trans eo1))⟩
    · rw [hn] at v2
      simp only [if_true] at v2
      have hw := written_shifted xs (vals src) k hk
      simp only [vals_length] at hw
      rw [hw] at v2
      obtain ⟨o3, e4, v3, eo3⟩ := v2.finish (n' := xs.length + src.length) hroom
      simp only [Bool.not_true, Out.of_false, e4]
      refine ⟨h2, o3, rfl, rep_of v3 rfl (by simp; omega) (by simp; omega), ?_, rule_same r (eo3.trans (eo2.trans eo1))⟩
      rw [eo3]; exact f1.trans f2
  · rw [if_neg hroom, if_neg hroom]
    rcases Bool.eq_false_or_eq_true I.reservable with hr | hr
    · simp only [hr, if_true, Bool.not_true, Bool.false_or, Impl.insertRealloc, hs]
      cases ha : (mkA && al 0)
      rotate_left
      · have ha' : mkA = true ∧ al 0 = true := by simpa using ha
        rw [ha'.2, L.mk_exn ha'.1]
        exact good_same r true
      · obtain ⟨h1, t, e2, w, f1, _⟩ := mkTemp r.view hf ha
        rw [e2]
        simp only [Bool.false_or]
        have hf1 := f1.fresh hf
        obtain ⟨g1, g2⟩ := w.expForce hf1 hr (m := xs.length + src.length) (by omega) (al 1)
        cases hx : (decide (I.mx < max (xs.length + src.length) (2 * cap)) || al 1)
        rotate_left
        · rw [g1 hx]
          obtain ⟨h2, e3, v, f2⟩ := w.fail
          simp only [e3, Bool.true_or, if_true]
          exact ⟨h2, o, rfl, rep_of v rfl rfl r.2, f1.trans f2, rule_same r rfl⟩
        · obtain ⟨h2, t2, e3, w2, f2⟩ := g2 hx
          rw [e3]
          simp only [Bool.false_or]
          obtain ⟨h3, t3, e4, w3, f3⟩ := w2.copyT (pos := k) (src := src) (by omega) (fun _ _ _ => rfl)
          rw [e4]
          cases hn : noThrow src
          · simp only [hn, Bool.false_eq_true, if_false] at w3
            obtain ⟨h4, e5, v, f4⟩ := w3.fail
            simp only [Bool.not_false, Out.of_true, e5, if_true]
            exact ⟨h4, o, rfl, rep_of v rfl rfl r.2, ((f1.trans f2).trans f3).trans f4, rule_same r rfl⟩
          · simp only [hn, if_true] at w3
            simp only [Bool.not_true, Out.of_false, Bool.false_eq_true, if_false]
            have hkl : (xs.take k).length = k := by simp [hk]
            have hdl : (xs.drop k).length = xs.length - k := by simp
            obtain ⟨h4, o4, t4, e5, w4, f4, _⟩ := w3.reloc (xs.take k) (src := 0) (dst := 0) (by omega)
              (by omega) (by intro j hj; simp only [hkl] at hj; simp [cells, hj]) (by
                intro j _ g; simp only [written, vals_length]; rw [if_neg (by omega)])
            rw [hkl] at e5
            simp only [e5]
            obtain ⟨h5, o5, t5, e6, w5, f5, _⟩ := w4.reloc (xs.drop k) (src := k) (dst := k + src.length) (by omega)
              (by omega) (by
                intro j hj
                simp only [cleared, hkl]
                rw [if_neg (by omega)]; simp only [cells]
                rw [List.getElem?_eq_getElem (by omega)]; simp) (by
                intro j g1 g2
                simp only [written, vals_length, hkl]; rw [if_neg (by omega), if_neg (by omega)])
            rw [hdl] at e6
            simp only [e6]
            have hw := written_around xs (vals src) k hk
            simp only [vals_length] at hw
            rw [hw, show cleared (cleared (cells xs) 0 (xs.take k).length) k (xs.drop k).length = fun _ => none by
              funext j
              simp only [cleared, hkl, hdl]
              by_cases q1 : j < k
              · rw [if_neg (by omega), if_pos (by omega)]
              · by_cases q2 : j < xs.length
                · rw [if_pos (by omega)]
                · rw [if_neg (by omega), if_neg (by omega)]; exact cells_raw (by omega)] at w5
            obtain ⟨t6, e7, v6, et6⟩ := w5.vt.setSize (n' := xs.length + src.length) (by omega)
            have w6 : Two L h5 o5 t6 cap (fun _ => none) xs.length (max (xs.length + src.length) (2 * cap))
                (cells (xs.take k ++ vals src ++ xs.drop k)) (xs.length + src.length) :=
              ⟨w5.vo, v6, fun b q1 q2 => w5.apart b (by rw [← et6]; exact q1) q2⟩
            simp only [e7]
            obtain ⟨h6, o6, e8, v7, f6, hpt⟩ := w6.takeOver hr (.inl (by have := r.view.range; omega))
            rw [e8]
            refine ⟨h6, o6, rfl, rep_of v7 rfl (by simp; omega) (by simp; omega), ?_, rule_grow r (by simp only; omega)⟩
            have f6' : Frame (both I t5 o5) h5 (I.own o6) h6 :=
              f6.congr (fun b => by simp only [both, et6]) (fun b => Iff.rfl)
            exact ((((f1.trans f2).trans f3).trans f4).trans f5).trans f6'
    · simp only [hr, Bool.false_eq_true, if_false, Bool.not_false, Bool.true_or, if_true]
      exact good_same r true

theorem good_resize {h : Heap V} {o : O} {xs : List V} {cap : Nat} (r : L.Rep h o xs cap) (hf : Fresh h)
    (n : Nat) (gen : Nat → Item V) (al : Nat → Bool) (hp : appendPre L.cfg (xs, cap) (n - xs.length)) :
    Good L h o (I.resize h o n gen al) (GOp.spec L.cfg (xs, cap) (.resize n gen al)) := by
  simp only [Impl.resize, GOp.spec, r.1.2.2]
  by_cases hn : n ≤ xs.length
  · rw [if_pos hn, if_pos hn]; exact good_eraseToEnd r hn
  · rw [if_neg hn, if_neg hn]
    exact good_append r hf _ al (by simpa using hp)

theorem good_reserve {h : Heap V} {o : O} {xs : List V} {cap : Nat} (r : L.Rep h o xs cap) (hf : Fresh h)
    (n : Nat) (f : Bool) (hn : n ≤ I.mx) (hr : I.reservable = true) :
    Good L h o (I.reserve h o n f) (GOp.spec L.cfg (xs, cap) (.reserve n f)) := by
  simp only [GOp.spec]
  by_cases hc : n ≤ cap
  · rw [if_pos hc, L.reserve_none r.1.1 (by rw [r.mem]; exact hc)]
    exact good_same r false
  · rw [if_neg hc]
    cases f
    · obtain ⟨h', o', e, wf, m, s, fr⟩ := L.reserve_ok (xs := xs) hr hf r.1.1 (by rw [r.mem]; rfl) r.1.2.2
        (by rw [r.mem]; exact r.2) (by rw [r.mem]; simp only; omega) hn
      rw [e]
      exact ⟨h', o', rfl, rep_of ⟨wf, m, s⟩ rfl rfl (by
        have := r.2; show xs.length ≤ n; omega), fr, rule_grow r (by show cap < n; omega)⟩
    · rw [L.reserve_exn hr r.1.1 (by rw [r.mem]; simp only; omega) hn]
      exact good_same r true

theorem good_shrink {h : Heap V} {o : O} {xs : List V} {cap : Nat} (r : L.Rep h o xs cap) (hf : Fresh h)
    (al : Nat → Bool) (hr : I.reservable = true) :
    Good L h o (I.shrinkToFit mn h o al) (GOp.spec L.cfg (xs, cap) (.shrink al)) := by
  have hs := r.1.2.2
  have hr2 := r.2
  have hrange := r.view.range
  have hspec : GOp.spec L.cfg (xs, cap) (.shrink al) =
      if xs.length = cap ∨ (0 < mn ∧ cap = mn) then ((xs, cap), false)
      else if (mkA && al 0) || (decide (mn < xs.length) && al 1) then ((xs, cap), true)
      else ((xs, max mn xs.length), false) := rfl
  rw [hspec]
  simp only [Impl.shrinkToFit, r.view.cap, hs]
  by_cases h1 : xs.length = cap
  · rw [if_pos h1, if_pos (.inl h1)]; exact good_same r false
  · rw [if_neg h1]
    by_cases h2 : 0 < mn ∧ cap = mn
    · rw [if_pos h2, if_pos (.inr h2)]; exact good_same r false
    · rw [if_neg h2, if_neg (not_or.2 ⟨h1, h2⟩)]
      cases ha : (mkA && al 0)
      rotate_left
      · have ha' : mkA = true ∧ al 0 = true := by simpa using ha
        rw [ha'.2, L.mk_exn ha'.1]
        exact good_same r true
      · obtain ⟨h1', t, e2, w, f1, hnul⟩ := mkTemp r.view hf ha
        rw [e2]
        simp only [Bool.false_or]
        -- the temporary after `reserve`
        have key : ((decide (mn < xs.length) && al 1) = true → I.reserve h1' t xs.length (al 1) = .exn (h1', t)) ∧
            ((decide (mn < xs.length) && al 1) = false → ∃ h2 t2, I.reserve h1' t xs.length (al 1) = .ok (h2, t2) ∧
              (max mn xs.length = 0 → I.ptr t2 = none) ∧
              Two L h2 o t2 cap (cells xs) xs.length (max mn xs.length) (fun _ => none) 0 ∧
              Frame (both I t o) h1' (both I t2 o) h2) := by
          by_cases hm : mn < xs.length
          · obtain ⟨g1, g2⟩ := w.reserve (f1.fresh hf) hr (m := xs.length) hm (by omega)
            simp only [hm, decide_true, Bool.true_and]
            constructor
            · intro q; rw [q]; exact g1
            · intro q; rw [q, Nat.max_eq_right (by omega)]
              obtain ⟨h2, t2, q1, q2, q3⟩ := g2
              exact ⟨h2, t2, q1, fun q => absurd q (by omega), q2, q3⟩
          · simp only [hm, decide_false, Bool.false_and, Bool.false_eq_true, false_imp_iff, true_and]
            intro _
            rw [Nat.max_eq_left (by omega)]
            exact ⟨h1', t, L.reserve_none w.vt.1 (by rw [w.vt.2.1]; simp only; omega), hnul, w, Frame.refl _ _⟩
        cases hx : (decide (mn < xs.length) && al 1)
        rotate_left
        · rw [key.1 hx]
          obtain ⟨h2, e3, v, f2⟩ := w.fail
          simp only [e3, if_true]
          exact ⟨h2, o, rfl, rep_of v rfl rfl r.2, f1.trans f2, rule_same r rfl⟩
        · obtain ⟨h2, t2, e3, hnul2, w2, f2⟩ := key.2 hx
          rw [e3]
          simp only [Bool.false_eq_true, if_false]
          obtain ⟨h4, o4, t4, e5, w4, f4, eo4⟩ := w2.reloc xs (src := 0) (dst := 0) (by omega)
            (by omega) (by intro j hj; simp [cells, hj]) (fun _ _ _ => rfl)
          simp only [e5]
          rw [written_none, show cleared (cells xs) 0 xs.length = fun _ => none by
            have := cleared_cells xs 0 (by omega); simpa [cells_nil] using this] at w4
          obtain ⟨t6, e7, v6, et6⟩ := w4.vt.setSize (n' := xs.length) (by omega)
          have w6 : Two L h4 o4 t6 cap (fun _ => none) xs.length (max mn xs.length) (cells xs) xs.length :=
            ⟨w4.vo, v6, fun b q1 q2 => w4.apart b (by rw [← et6]; exact q1) q2⟩
          simp only [e7]
          obtain ⟨h6, o6, e8, v7, f6, hpt⟩ := w6.takeOver hr (.inr ⟨xs, rfl, rfl, by omega⟩)
          rw [e8]
          refine ⟨h6, o6, rfl, rep_of v7 rfl rfl (by simp only; omega), ?_, ?_⟩
          rotate_left
          · refine ⟨fun h0 => ?_, fun h0 _ => ?_⟩
            · rw [r.mem] at h0
              simp only at h0
              omega
            · rw [hpt]
              exact (ptr_of_own et6).trans ((ptr_of_own eo4).trans (hnul2 h0))
          have f6' : Frame (both I t4 o4) h4 (I.own o6) h6 :=
            f6.congr (fun b => by simp only [both, et6]) (fun b => Iff.rfl)
          exact ((f1.trans f2).trans f4).trans f6'

theorem good_assignToEmpty {h : Heap V} {o : O} {cap : Nat} (r : L.Rep h o [] cap) (hf : Fresh h)
    (src : List (Item V)) (al : Nat → Bool)
    (hp : I.reservable = true → src.length ≤ I.mx ∧ (cap < src.length → al 0 = false)) :
    Good L h o (I.assignToEmpty h o src al) (GOp.spec L.cfg ([], cap) (.assignTrivial src al)) := by
  have hs := r.1.2.2
  have hr2 := r.2
  simp only [List.length_nil] at hs
  have e0 : src.map (·.val) = vals src := rfl
  have e1 : (src.any (·.throws)) = !noThrow src := by simp [noThrow]
  have hcond : ∀ (α : Type) (a b : α), (if (!noThrow src) = true then a else b) = if noThrow src = true then b else a := by
    intro α a b; cases noThrow src <;> rfl
  have fill : ∀ {h1 o1 cap1}, L.Rep h1 o1 [] cap1 → src.length ≤ cap1 →
      Good L h1 o1 (match I.copyAt h1 o1 0 src with
      | .ub => .ub
      | .exn r => .exn r
      | .ok r => I.finish (some r) src.length)
      (if noThrow src then ((vals src, cap1), false) else (([], cap1), true)) := by
    intro h1 o1 cap1 r1 hl
    have := good_copyEnd r1 src (by simpa using hl)
    have hs1 := r1.1.2.2
    simp only [List.length_nil] at hs1
    simpa [hs1] using this
  simp only [Impl.assignToEmpty, hs, GOp.spec, r.view.cap, Lawful.cfg, e0, e1]
  rcases Bool.eq_false_or_eq_true I.reservable with hr | hr
  · simp only [hr, if_true, Bool.not_true, Bool.false_and, Bool.false_eq_true, if_false, ne_eq, not_true]
    obtain ⟨p1, p2⟩ := hp hr
    rw [if_neg (Nat.not_lt.2 p1)]
    by_cases hc : cap < src.length
    · rw [if_pos hc, p2 hc]
      obtain ⟨h1, o1, e2, wf, m, s, fr⟩ := L.replace_ok (n := src.length) hr hf r.1.1
        (by rw [r.mem, cells_nil]) hs (by rw [r.mem]; exact hc) p1
      rw [e2]
      simp only
      have r1 : L.Rep h1 o1 [] src.length := rep_of ⟨wf, m, s⟩ cells_nil.symm rfl (by simp)
      obtain ⟨h2, o2, e3, r3, f3, _⟩ := fill r1 (Nat.le_refl _)
      rw [Nat.max_eq_right (by omega), hcond]
      exact ⟨h2, o2, e3, r3, fr.trans f3, by
        cases noThrow src <;> exact rule_grow r (by simp only [if_true, if_false, Bool.false_eq_true]; omega)⟩
    · rw [if_neg hc]
      simp only
      rw [Nat.max_eq_left (by omega), hcond]
      exact fill r (by omega)
  · simp only [hr, if_true, Bool.not_false, Bool.true_and, Bool.false_eq_true, if_false, decide_eq_true_eq,
      ne_eq, not_true]
    by_cases hc : cap < src.length
    · rw [if_pos hc, if_pos hc]; exact good_same r true
    · rw [if_neg hc, if_neg hc]
      rw [Nat.max_eq_left (by omega), hcond]
      exact fill r (by omega)

theorem good_assignTrivial {h : Heap V} {o : O} {xs : List V} {cap : Nat} (r : L.Rep h o xs cap) (hf : Fresh h)
    (src : List (Item V)) (al : Nat → Bool)
    (hp : I.reservable = true → src.length ≤ I.mx ∧ (cap < src.length → al 0 = false)) :
    Good L h o (I.assignTrivial h o src al) (GOp.spec L.cfg (xs, cap) (.assignTrivial src al)) := by
  obtain ⟨h1, o1, e1, r1, f1, pr1⟩ := good_clear r
  obtain ⟨h2, o2, e2, r2, f2, pr2⟩ := good_assignToEmpty r1 (f1.fresh hf) src al hp
  refine ⟨h2, o2, ?_, r2, f1.trans f2, rule_trans r r1 pr1 pr2⟩
  simp only [Impl.assignTrivial, e1, Out.of_false]
  exact e2

theorem good_assign {h : Heap V} {o : O} {xs : List V} {cap : Nat} (r : L.Rep h o xs cap) (hf : Fresh h)
    (src : List (Item V)) (left : V) (al : Nat → Bool)
    (hp : appendPre L.cfg (xs.take src.length, cap) (src.length - xs.length)) :
    Good L h o (I.assign h o src left al) (GOp.spec L.cfg (xs, cap) (.assign src left al)) := by
  have hs := r.1.2.2
  have hr2 := r.2
  obtain ⟨c1, c2⟩ := copyTruncate_eq left cap xs [] src (by simpa using r.2)
  simp only [List.nil_append, List.length_nil, Nat.zero_add] at c1 c2
  simp only [Impl.assign, r.mem, hs, GOp.spec]
  cases hx : (src.take xs.length).findIdx? (·.throws) with
  | some j =>
    obtain ⟨a, b, e⟩ := c1 j hx
    rw [e]
    have hj : j < (src.take xs.length).length := by
      have := List.findIdx?_eq_some_iff_getElem.1 hx; exact this.1
    simp only [List.length_take] at hj
    obtain ⟨v, eo, fr⟩ := r.view.put (cells ((src.map (·.val)).take j ++ left :: xs.drop (j + 1)))
    exact ⟨_, _, rfl, rep_of v rfl (by simp; omega) (by simp; omega), fr, rule_same r eo⟩
  | none =>
    rw [c2 hx]
    simp only
    obtain ⟨v, eo, fr⟩ := r.view.put (cells ((src.map (·.val)).take xs.length ++ xs.drop src.length))
    have hl : ((src.map (·.val)).take xs.length ++ xs.drop src.length).length = xs.length := by
      simp; omega
    have r1 := rep_of v rfl hl.symm (by omega)
    obtain ⟨h1, o1, e1, r1', f1, pr1⟩ := good_eraseToEnd (k := min src.length xs.length) r1 (by omega)
    rw [e1]
    simp only [Out.of_false]
    have htake : ((src.map (·.val)).take xs.length ++ xs.drop src.length).take (min src.length xs.length) =
        (src.map (·.val)).take xs.length := by
      rw [List.take_append_of_le_length (by simp; omega), List.take_take]
      by_cases hq : src.length ≤ xs.length
      · rw [Nat.min_eq_left hq, List.take_of_length_le (l := src.map (·.val)) (i := xs.length) (by simpa using hq),
          List.take_of_length_le (by simp; omega)]
      · congr 1; omega
    rw [htake] at r1'
    obtain ⟨h2, o2, e2, r2, f2, pr2⟩ := good_append r1' ((fr.trans f1).fresh hf) (src.drop xs.length) al (by
      intro hr
      have := hp hr
      simp only [List.length_take, List.length_map, List.length_drop] at this ⊢
      omega)
    exact ⟨h2, o2, e2, r2, (fr.trans f1).trans f2, rule_from r r1 eo (rule_trans r1 r1' pr1 pr2)⟩

theorem checkedView_fits : ∀ (src : List (Item V)) (n : Nat), src.length ≤ n → checkedView n src = src
  | [], _, _ => by simp [checkedView]
  | it :: its, 0, h => by simp at h
  | it :: its, n + 1, h => by
    simp only [List.length_cons] at h
    rw [checkedView, checkedView_fits its n (by omega)]

theorem checkedView_over : ∀ (src : List (Item V)) (n : Nat), n < src.length →
    noThrow (checkedView n src) = false ∧ (checkedView n src).findIdx (·.throws) ≤ n
  | [], _, h => by simp at h
  | it :: its, 0, _ => by simp [checkedView, noThrow, List.findIdx_cons]
  | it :: its, n + 1, h => by
    simp only [List.length_cons] at h
    obtain ⟨h1, h2⟩ := checkedView_over its n (by omega)
    rw [checkedView]
    constructor
    · simp only [noThrow, List.any_cons, Bool.not_eq_false', Bool.or_eq_true]
      right; simpa [noThrow] using h1
    · rw [List.findIdx_cons]
      cases it.throws <;> simp [h2]

theorem good_appendUnsized {h : Heap V} {o : O} {xs : List V} {cap : Nat} (r : L.Rep h o xs cap) (hf : Fresh h)
    (src : List (Item V)) (al : Nat → Bool) (hp : (GOp.appendUnsized src al).pre L.cfg (xs, cap)) :
    Good L h o (I.appendUnsized h o al src) ((GOp.appendUnsized src al).spec L.cfg (xs, cap)) := by
  simp only [GOp.pre] at hp
  simp only [GOp.spec, Impl.appendUnsized]
  have hcfg : L.cfg.reservable = I.reservable := rfl
  rw [hcfg] at hp ⊢
  cases hr : I.reservable
  · simp only [hr, Bool.false_eq_true, if_false] at hp ⊢
    have hs := r.1.2.2
    simp only [r.view.cap]
    have hspec : specInsert L.cfg (xs, cap) xs.length (src.map (·.val)) (!src.any (·.throws)) al =
        if xs.length + src.length ≤ cap then
          (if noThrow src then ((xs ++ vals src, cap), false) else ((xs, cap), true))
        else ((xs, cap), true) := by
      simp only [specInsert, hcfg, hr, List.length_map]
      by_cases hc : xs.length + src.length ≤ cap
      · rw [if_pos hc, if_pos hc]; simp [noThrow, vals]
      · rw [if_neg hc, if_neg hc]; simp
    rw [hspec]
    by_cases hc : xs.length + src.length ≤ cap
    · rw [if_pos hc, checkedView_fits src cap (by omega)]
      exact good_copyEnd r src hc
    · rw [if_neg hc]
      have hx : xs = [] := by
        rcases hp with hp | hp
        · exact absurd hp hc
        · exact hp
      subst hx
      have hs0 : I.size o = 0 := hs
      simp only [List.length_nil, Nat.zero_add] at hc
      obtain ⟨g1, g2⟩ := checkedView_over src cap (by omega)
      have he : I.copyAt h o (I.size o) (checkedView cap src) = .exn (I.put h o (cells ([] : List V))) := by
        simp only [Impl.copyAt, r.mem, hs0]
        rw [uninitCopy_exn' g1 (by omega) (fun j _ _ => by simp [cells])]
      rw [he]
      obtain ⟨v, eo, fr⟩ := r.view.put (cells ([] : List V))
      exact ⟨_, _, rfl, rep_of v rfl rfl r.2, fr, rule_same r eo⟩
  · simp only [hr, if_true] at hp ⊢
    exact good_pushes (al := al) src al r hf hp

/-- Every operation, from every well-formed object. -/
theorem good_step {h : Heap V} {o : O} {xs : List V} {cap : Nat} (r : L.Rep h o xs cap) (hf : Fresh h)
    (op : GOp V) (hp : op.pre L.cfg (xs, cap)) :
    Good L h o (I.step mn h o op) (op.spec L.cfg (xs, cap)) := by
  cases op with
  | push c al =>
    cases c with
    | lit v t => exact good_push r hf _ v t al hp (.inl rfl)
    | self k t =>
      have hk' : k < xs.length := hp.2
      have hk : xs[k]? = some xs[k] := List.getElem?_eq_getElem hk'
      have := good_push r hf (.self k t) xs[k] t al hp.1 (.inr ⟨k, rfl, hk⟩)
      simpa only [Impl.step, GOp.spec, hk] using this
  | pop => exact good_pop r hp
  | append src al => exact good_append r hf src al hp
  | appendUnsized src al => exact good_appendUnsized r hf src al hp
  | insert k src al => exact good_insert r hf src al hp.1 hp.2
  | erase a b => exact good_erase r hp.1 hp.2
  | eraseToEnd k => exact good_eraseToEnd r hp
  | eraseIf p mv =>
    obtain ⟨h', o', e, r', fr, pr⟩ := good_eraseIf r p mv
    exact ⟨h', o', by simp only [Impl.step, e, GOp.spec, Out.of_false], r', fr, pr⟩
  | clear => exact good_clear r
  | resize n gen al => exact good_resize r hf n gen al hp
  | reserve n f => exact good_reserve r hf n f hp.1 hp.2
  | shrink al => exact good_shrink r hf al hp
  | assignTrivial src al => exact good_assignTrivial r hf src al hp
  | assign src left al => exact good_assign r hf src left al hp

end Lawful

end Verif.Containers
