import Verif.Maps.FlatMapProps

/-!
# upsert, histories of maps and where they fail (C33)
-/

namespace Verif.Maps

open Verif.Algo Verif.Algo.Mem

variable {κ μ α : Type}

theorem Cfg.SortableSize.mono {C : Cfg κ μ} {n k : Nat} (h : C.SortableSize n) (hk : k ≤ n) : C.SortableSize k := h.imp (by omega) id

/-! ## upsert -/

/-- What has become of the elements `xs` of the map and of those of the range that have been seen. `E`: every update has happened. -/
structure UInv (C : Cfg κ μ) (update : μ → μ → μ) (E : Prop) (xs seen ys tail : List (κ × μ)) : Prop where
  len : ys.length = xs.length
  rel : ∀ i (h : i < ys.length) (h' : i < xs.length), (ys[i] = xs[i] ∧ (E → ∀ o ∈ seen, ¬ C.Same xs[i].1 o.1)) ∨
    ∃ o ∈ seen, C.Same xs[i].1 o.1 ∧ ys[i] = (xs[i].1, update xs[i].2 o.2)
  tailMem : ∀ t ∈ tail, t ∈ seen ∧ (E → ∀ x ∈ xs, ¬ C.Same x.1 t.1)
  cover : ∀ o ∈ seen, o ∈ tail ∨ ∃ x ∈ xs, C.Same x.1 o.1
  short : tail.length ≤ seen.length

theorem UInv.key {C : Cfg κ μ} {update : μ → μ → μ} {E : Prop} {xs seen ys tail : List (κ × μ)} (h : UInv C update E xs seen ys tail) {i : Nat} (hi : i < ys.length)
    (hi' : i < xs.length) : ys[i].1 = xs[i].1 := by
  rcases h.rel i hi hi' with ⟨e, -⟩ | ⟨o, -, -, e⟩ <;> rw [e]

theorem UInv.increasing {C : Cfg κ μ} {update : μ → μ → μ} {E : Prop} {xs seen ys tail : List (κ × μ)} (h : UInv C update E xs seen ys tail)
    (hxs : xs.Pairwise fun x y => C.lt x.1 y.1 = true) : ys.Pairwise fun x y => C.lt x.1 y.1 = true := by
  rw [List.pairwise_iff_getElem] at hxs ⊢
  intro i j hi hj hij
  have := h.len
  rw [h.key hi (by omega), h.key hj (by omega)]
  exact hxs i j (by omega) (by omega) hij

theorem upsertLoop_spec {C : Cfg κ μ} (ho : StrictWeak C.lt) {update : μ → μ → μ} {E : Prop} {xs : List (κ × μ)} (hxs : xs.Pairwise fun x y => C.lt x.1 y.1 = true) :
    ∀ (rest seen ys tail : List (κ × μ)), UInv C update E xs seen ys tail → ((seen ++ rest).Pairwise fun a b => ¬ C.Same a.1 b.1) →
      (E → (seen ++ rest).Pairwise fun a b => (∃ x ∈ xs, C.Same x.1 b.1) → ∃ x ∈ xs, C.Same x.1 a.1) → xs.length + seen.length + rest.length ≤ C.mx →
      ∃ ys' tail', C.upsertLoop update (ys ++ tail) rest = some (ys' ++ tail') ∧ UInv C update E xs (seen ++ rest) ys' tail'
  | [], seen, ys, tail, hi, _, _, _ => ⟨ys, tail, rfl, by rwa [List.append_nil]⟩
  | o :: rest, seen, ys, tail, hi, hd, hE, hroom => by
    have hassoc : seen ++ o :: rest = seen ++ [o] ++ rest := by simp
    have hdo : ∀ a ∈ seen, ¬ C.Same a.1 o.1 := fun a ha => (List.pairwise_append.1 hd).2.2 a ha o (by simp)
    rw [Cfg.upsertLoop]
    simp only [Option.bind_eq_bind]
    rw [hassoc] at hd hE ⊢
    simp only [List.length_cons] at hroom
    have hlen := hi.len
    have hshort := hi.short
    obtain ⟨i, e, hcase⟩ := C.find_sound (ys ++ tail) o.1
    rw [e, Option.bind_some]
    -- not found
    have miss : i = (ys ++ tail).length → (E → ∀ x ∈ xs, ¬ C.Same x.1 o.1) → ∃ ys' tail',
        (if i ≠ (ys ++ tail).length then do
          let e ← (ys ++ tail)[i]?
          C.upsertLoop update ((ys ++ tail).set i (e.1, update e.2 o.2)) rest
        else do
          let xs ← C.append (ys ++ tail) [o]
          C.upsertLoop update xs rest) = some (ys' ++ tail') ∧ UInv C update E xs (seen ++ [o] ++ rest) ys' tail' := by
      intro hend hno
      rw [if_neg (by omega), Cfg.append, if_pos (by simp only [List.length_append, List.length_singleton]; omega)]
      simp only [Option.bind_eq_bind, Option.bind_some, List.append_assoc ys]
      refine upsertLoop_spec ho hxs rest (seen ++ [o]) ys (tail ++ [o]) ⟨hlen, fun j h1 h2 => ?_, fun t ht => ?_, fun a ha => ?_, by
        simp only [List.length_append, List.length_singleton]; omega⟩ hd hE (by simp only [List.length_append, List.length_singleton]; omega)
      · rcases hi.rel j h1 h2 with ⟨h3, h4⟩ | ⟨a, ha, h3⟩
        · refine .inl ⟨h3, fun hE' a ha => ?_⟩
          rcases List.mem_append.1 ha with ha | ha
          · exact h4 hE' a ha
          · rw [List.mem_singleton.1 ha]; exact hno hE' _ (List.getElem_mem _)
        · exact .inr ⟨a, List.mem_append_left _ ha, h3⟩
      · rcases List.mem_append.1 ht with ht | ht
        · exact ⟨List.mem_append_left _ (hi.tailMem t ht).1, (hi.tailMem t ht).2⟩
        · rw [List.mem_singleton.1 ht]; exact ⟨by simp, hno⟩
      · rcases List.mem_append.1 ha with ha | ha
        · exact (hi.cover a ha).imp (List.mem_append_left _) id
        · rw [List.mem_singleton.1 ha]; exact .inl (by simp)
    rcases hcase with hend | ⟨hlt, hsame⟩
    · refine miss hend fun hE' x hx hs => ?_
      -- all elements seen had their keys in the map, so the contents are sorted and the search succeeds
      have htail : tail = [] := by
        cases tail with
        | nil => rfl
        | cons t tail =>
          obtain ⟨h1, h2⟩ := hi.tailMem t (by simp)
          have h3 := hE hE'
          rw [List.append_assoc] at h3
          obtain ⟨y, hy, hys⟩ := (List.pairwise_append.1 h3).2.2 t h1 o (by simp) ⟨x, hx, hs⟩
          exact absurd hys (h2 hE' y hy)
      subst htail
      rw [List.append_nil] at e hend
      obtain ⟨j, e', hj⟩ := C33_find (S := (· ∈ ys)) ho ⟨hi.increasing hxs, fun _ => Iff.rfl⟩ o.1
      rw [e] at e'
      cases e'
      rcases hj with ⟨z, hz, -⟩ | ⟨-, hno⟩
      · rw [hend, List.getElem?_eq_none (Nat.le_refl _)] at hz; cases hz
      · obtain ⟨k, hk, rfl⟩ := List.mem_iff_getElem.1 hx
        refine hno _ (List.getElem_mem (n := k) (by omega)) ?_
        rw [hi.key (by omega) hk]; exact hs
    · have hiy : i < ys.length := by
        by_contra hge
        rw [List.length_append] at hlt
        have hm : (ys ++ tail)[i] ∈ tail := by
          rw [List.getElem_append_right (by omega)]; exact List.getElem_mem _
        exact hdo _ (hi.tailMem _ hm).1 hsame
      have hix : i < xs.length := by omega
      rw [List.getElem_append_left hiy] at hsame
      have hkey := hi.key hiy hix
      rw [hkey] at hsame
      have hold : ys[i] = xs[i] := by
        rcases hi.rel i hiy hix with ⟨h3, -⟩ | ⟨a, ha, h3, -⟩
        · exact h3
        · exact absurd (h3.symm.trans ho hsame) (hdo a ha)
      rw [if_pos (by omega), List.getElem?_eq_getElem hlt]
      simp only [Option.bind_some]
      rw [List.getElem_append_left hiy, hold, List.set_append_left _ _ hiy]
      refine upsertLoop_spec ho hxs rest (seen ++ [o]) (ys.set i (xs[i].1, update xs[i].2 o.2)) tail ⟨by rw [List.length_set]; exact hlen, fun j h1 h2 => ?_, fun t ht => ?_, fun a ha => ?_, by
        simp only [List.length_append, List.length_singleton]; omega⟩ hd hE (by simp only [List.length_append, List.length_singleton]; omega)
      · rw [List.getElem_set]
        split
        · rename_i hij
          subst hij
          exact .inr ⟨o, by simp, hsame, rfl⟩
        · rename_i hij
          rw [List.length_set] at h1
          rcases hi.rel j h1 h2 with ⟨h3, h4⟩ | ⟨a, ha, h3⟩
          · refine .inl ⟨h3, fun hE' a ha => ?_⟩
            rcases List.mem_append.1 ha with ha | ha
            · exact h4 hE' a ha
            · rw [List.mem_singleton.1 ha]
              intro hs
              have hs' : C.Same xs[i].1 xs[j].1 := hsame.trans ho hs.symm
              rcases Nat.lt_or_gt_of_ne hij with hlt' | hlt'
              · have := List.pairwise_iff_getElem.1 hxs i j hix h2 hlt'
                rw [hs'.1] at this; cases this
              · have := List.pairwise_iff_getElem.1 hxs j i h2 hix hlt'
                rw [hs'.2] at this; cases this
          · exact .inr ⟨a, List.mem_append_left _ ha, h3⟩
      · exact ⟨List.mem_append_left _ (hi.tailMem t ht).1, (hi.tailMem t ht).2⟩
      · rcases List.mem_append.1 ha with ha | ha
        · exact hi.cover a ha
        · rw [List.mem_singleton.1 ha]; exact .inr ⟨_, List.getElem_mem hix, hsame⟩

theorem upsert_merged {C : Cfg κ μ} (h : C.Ok) (hk : C.mv ≠ .clearSelf) {update : μ → μ → μ} {E : Prop} {xs other : List (κ × μ)} (hxs : xs.Pairwise fun x y => C.lt x.1 y.1 = true)
    (hroom : xs.length + other.length ≤ C.mx) (hn : C.SortableSize other.length) (hd : other.Pairwise fun a b => ¬ C.Same a.1 b.1)
    (hE : E → other.Pairwise fun a b => (∃ x ∈ xs, C.Same x.1 b.1) → ∃ x ∈ xs, C.Same x.1 a.1) :
    ∃ ys tail zs, C.upsert xs other update = some zs ∧ UInv C update E xs other ys tail ∧ zs.Pairwise (fun x y => C.lt x.1 y.1 = true) ∧
      (∀ e ∈ ys, e ∈ zs) ∧ (∀ z ∈ zs, z ∈ ys ∨ z ∈ tail ∧ ∀ x ∈ ys, ¬ C.Same x.1 z.1) ∧ (∀ e ∈ tail, ∃ z ∈ zs, C.Same z.1 e.1) := by
  obtain ⟨ys, tail, e, hi⟩ := upsertLoop_spec h.order (update := update) (E := E) hxs other [] xs [] ⟨rfl, fun i _ _ => .inl ⟨rfl, fun _ o ho => by simp at ho⟩, fun t ht => by simp at ht,
    fun o ho => by simp at ho, by simp⟩ hd hE (by simpa using hroom)
  rw [List.nil_append] at hi
  rw [List.append_nil] at e
  have hinc := hi.increasing hxs
  obtain ⟨tail', zs, e2, hp, hu⟩ := h.merge hk hinc (.inl (hn.mono hi.short))
  obtain ⟨h1, h2, h3⟩ := uniqued_append h.order hinc hu
  refine ⟨ys, tail, zs, ?_, hi, hu.increasing, h1, fun z hz => (h2 z hz).imp id fun hz => ⟨hp.mem_iff.1 hz.1, hz.2⟩, fun e he => h3 e (hp.mem_iff.2 he)⟩
  rw [Cfg.upsert]
  simp only [Option.bind_eq_bind]
  rw [e, Option.bind_some, ← hi.len, e2]

theorem pairwise_ne {C : Cfg κ μ} {xs : List (κ × μ)} (hd : xs.Pairwise fun a b => ¬ C.Same a.1 b.1) {x y : κ × μ} (hx : x ∈ xs) (hy : y ∈ xs) (hne : x ≠ y) :
    ¬ C.Same x.1 y.1 := by
  haveI : Std.Symm fun a b : κ × μ => ¬ C.Same a.1 b.1 := ⟨fun _ _ h1 h2 => h1 h2.symm⟩
  exact hd.forall hx hy hne

/-- `upsert` of any range with unique keys: the map ends up with exactly the keys of both. A key that only one of them has keeps its element. A key that both
have ends up with its old mapped value or with the updated one; which of them is not as it should be, see
`C33_upsert_violated`. -/
theorem C33_upsert_keys {C : Cfg κ μ} (h : C.Ok) (hk : C.mv ≠ .clearSelf) {S : κ × μ → Prop} {xs : List (κ × μ)} (hxs : C.Lists S xs) (update : μ → μ → μ)
    {other : List (κ × μ)} (hroom : xs.length + other.length ≤ C.mx) (hn : C.SortableSize other.length) (hd : other.Pairwise fun a b => ¬ C.Same a.1 b.1) :
    ∃ zs S', C.upsert xs other update = some zs ∧ C.Lists S' zs ∧
      (∀ e, S e → S' e ∨ ∃ o ∈ other, C.Same e.1 o.1 ∧ S' (e.1, update e.2 o.2)) ∧ (∀ o ∈ other, (∀ x, S x → ¬ C.Same x.1 o.1) → S' o) ∧
      ∀ e, S' e → S e ∨ (∃ x, S x ∧ ∃ o ∈ other, C.Same x.1 o.1 ∧ e = (x.1, update x.2 o.2)) ∨ (e ∈ other ∧ ∀ x, S x → ¬ C.Same x.1 e.1) := by
  obtain ⟨ys, tail, zs, e, hi, hinc, h1, h2, h3⟩ := upsert_merged h hk (update := update) (E := False) hxs.increasing hroom hn hd fun h => h.elim
  have hlen := hi.len
  have hkeys : ∀ x ∈ xs, ∃ y ∈ ys, y.1 = x.1 := by
    intro x hx
    obtain ⟨i, hil, rfl⟩ := List.mem_iff_getElem.1 hx
    exact ⟨_, List.getElem_mem (n := i) (by omega), hi.key (by omega) hil⟩
  have hkeys' : ∀ y ∈ ys, ∃ x ∈ xs, y.1 = x.1 := by
    intro y hy
    obtain ⟨i, hil, rfl⟩ := List.mem_iff_getElem.1 hy
    exact ⟨_, List.getElem_mem (n := i) (by omega), hi.key hil (by omega)⟩
  refine ⟨zs, (· ∈ zs), e, ⟨hinc, fun _ => Iff.rfl⟩, fun e he => ?_, fun o ho hno => ?_, fun e he => ?_⟩
  · obtain ⟨i, hil, rfl⟩ := List.mem_iff_getElem.1 ((hxs.mem e).2 he)
    rcases hi.rel i (by omega) hil with ⟨h4, -⟩ | ⟨o, ho, hs, h4⟩
    · exact .inl (h1 _ (h4 ▸ List.getElem_mem _))
    · exact .inr ⟨o, ho, hs, h1 _ (h4 ▸ List.getElem_mem _)⟩
  · rcases hi.cover o ho with ht | ⟨x, hx, hs⟩
    · obtain ⟨z, hz, hzs⟩ := h3 o ht
      rcases h2 z hz with hm | ⟨hm, -⟩
      · obtain ⟨x, hx, hxk⟩ := hkeys' z hm
        rw [hxk] at hzs
        exact absurd hzs (hno x ((hxs.mem x).1 hx))
      · have : z = o := by
          by_contra hne
          have hzo : z ∈ other := (hi.tailMem z hm).1
          exact (pairwise_ne hd hzo ho hne) hzs
        exact this ▸ hz
    · exact absurd hs (hno x ((hxs.mem x).1 hx))
  · rcases h2 e he with hm | ⟨hm, hno⟩
    · obtain ⟨i, hil, rfl⟩ := List.mem_iff_getElem.1 hm
      rcases hi.rel i hil (by omega) with ⟨h4, -⟩ | ⟨o, ho, hs, h4⟩
      · exact .inl (h4 ▸ (hxs.mem _).1 (List.getElem_mem _))
      · exact .inr (.inl ⟨xs[i]'(by omega), (hxs.mem _).1 (List.getElem_mem _), o, ho, hs, h4⟩)
    · refine .inr (.inr ⟨(hi.tailMem e hm).1, fun x hx hs => ?_⟩)
      obtain ⟨y, hy, hyk⟩ := hkeys x ((hxs.mem x).2 hx)
      exact hno y hy (by rw [hyk]; exact hs)

/-- `upsert` of a range in which the keys that the map has come before the others does what it should. Missing: other
orders, see `C33_upsert_violated`. -/
theorem C33_upsert_partial {C : Cfg κ μ} (h : C.Ok) (hk : C.mv ≠ .clearSelf) {S : κ × μ → Prop} {xs : List (κ × μ)} (hxs : C.Lists S xs) (update : μ → μ → μ)
    {other : List (κ × μ)} (hroom : xs.length + other.length ≤ C.mx) (hn : C.SortableSize other.length) (hd : other.Pairwise fun a b => ¬ C.Same a.1 b.1)
    (hE : other.Pairwise fun a b => (∃ x, S x ∧ C.Same x.1 b.1) → ∃ x, S x ∧ C.Same x.1 a.1) :
    ∃ zs S', C.upsert xs other update = some zs ∧ C.Lists S' zs ∧ C.Spec S S' (.upsert other update) := by
  obtain ⟨ys, tail, zs, e, hi, hinc, h1, h2, h3⟩ := upsert_merged h hk (update := update) (E := True) hxs.increasing hroom hn hd fun _ => by
    refine hE.imp fun {a b} hab => ?_
    rintro ⟨x, hx, hs⟩
    obtain ⟨y, hy, hs'⟩ := hab ⟨x, (hxs.mem x).1 hx, hs⟩
    exact ⟨y, (hxs.mem y).2 hy, hs'⟩
  have hlen := hi.len
  have hkeys' : ∀ y ∈ ys, ∃ x ∈ xs, y.1 = x.1 := by
    intro y hy
    obtain ⟨i, hil, rfl⟩ := List.mem_iff_getElem.1 hy
    exact ⟨_, List.getElem_mem (n := i) (by omega), hi.key hil (by omega)⟩
  refine ⟨zs, (· ∈ zs), e, ⟨hinc, fun _ => Iff.rfl⟩, fun e => ⟨fun he => ?_, ?_⟩⟩
  · rcases h2 e he with hm | ⟨hm, hno⟩
    · obtain ⟨i, hil, rfl⟩ := List.mem_iff_getElem.1 hm
      rcases hi.rel i hil (by omega) with ⟨h4, h5⟩ | ⟨o, ho, hs, h4⟩
      · exact .inl ⟨h4 ▸ (hxs.mem _).1 (List.getElem_mem _), fun o ho => by rw [h4]; exact h5 trivial o ho⟩
      · exact .inr (.inl ⟨xs[i]'(by omega), o, (hxs.mem _).1 (List.getElem_mem _), ho, hs, h4⟩)
    · exact .inr (.inr ⟨(hi.tailMem e hm).1, fun x hx => (hi.tailMem e hm).2 trivial x ((hxs.mem x).2 hx)⟩)
  · rintro (⟨he, hno⟩ | ⟨x, o, hx, ho, hs, rfl⟩ | ⟨he, hno⟩)
    · obtain ⟨i, hil, rfl⟩ := List.mem_iff_getElem.1 ((hxs.mem e).2 he)
      rcases hi.rel i (by omega) hil with ⟨h4, -⟩ | ⟨o, ho, hs, -⟩
      · exact h1 _ (h4 ▸ List.getElem_mem _)
      · exact absurd hs (hno o ho)
    · obtain ⟨i, hil, rfl⟩ := List.mem_iff_getElem.1 ((hxs.mem x).2 hx)
      rcases hi.rel i (by omega) hil with ⟨-, h5⟩ | ⟨o', ho', hs', h4⟩
      · exact absurd hs (h5 trivial o ho)
      · have : o' = o := by
          by_contra hne
          exact (pairwise_ne hd ho' ho hne) (hs'.symm.trans h.order hs)
        subst this
        exact h1 _ (h4 ▸ List.getElem_mem _)
    · rcases hi.cover e he with ht | ⟨x, hx, hs⟩
      · obtain ⟨z, hz, hzs⟩ := h3 e ht
        rcases h2 z hz with hm | ⟨hm, -⟩
        · obtain ⟨x, hx, hxk⟩ := hkeys' z hm
          rw [hxk] at hzs
          exact absurd hzs (hno x ((hxs.mem x).1 hx))
        · have : z = e := by
            by_contra hne
            exact (pairwise_ne hd (hi.tailMem z hm).1 he hne) hzs
          exact this ▸ hz
      · exact absurd hs (hno x ((hxs.mem x).1 hx))

/-! ## Histories -/

/-- When an operation can be used: iterators are valid, and there is room. For ranges see `C33_insert_range_partial` and
`C33_upsert_partial`. -/
def Cfg.Pre (C : Cfg κ μ) (xs : List (κ × μ)) : Op κ μ → Prop
  | .insert k _ => xs.length < C.mx ∨ ∃ e ∈ xs, C.Same e.1 k
  | .insertRange init => xs.length + init.length ≤ C.mx ∧ C.Sortable init
  | .erase i => i < xs.length
  | .eraseRange i j => i ≤ j ∧ j ≤ xs.length
  | .eraseIf _ => True
  | .upsert other _ => xs.length + other.length ≤ C.mx ∧ C.SortableSize other.length ∧ (other.Pairwise fun a b => ¬ C.Same a.1 b.1) ∧
      other.Pairwise fun a b => (∃ x ∈ xs, C.Same x.1 b.1) → ∃ x ∈ xs, C.Same x.1 a.1

/-- Every operation of a history can be used when its turn comes. -/
def Cfg.PreRun (C : Cfg κ μ) : List (κ × μ) → List (Op κ μ) → Prop
  | _, [] => True
  | xs, op :: ops => C.Pre xs op ∧ ∀ ys, C.step xs op = some ys → C.PreRun ys ops

theorem Cfg.Ok.step {C : Cfg κ μ} (h : C.Ok) (hk : C.mv ≠ .clearSelf) {S : κ × μ → Prop} {xs : List (κ × μ)} (hxs : C.Lists S xs) (op : Op κ μ) (hp : C.Pre xs op) :
    ∃ ys S', C.step xs op = some ys ∧ C.Lists S' ys ∧ C.Spec S S' op := by
  cases op with
  | insert k v =>
    obtain ⟨ys, i, b, S', e, h1, h2, -⟩ := C33_insert h.order hxs k v (hp.imp id fun ⟨e, he, hs⟩ => ⟨e, (hxs.mem e).1 he, hs⟩)
    exact ⟨ys, S', by rw [Cfg.step, e]; rfl, h1, h2⟩
  | insertRange init => exact C33_insert_range_partial h hk hxs hp.1 hp.2
  | erase i => exact C33_erase h.order hxs hp
  | eraseRange i j => exact C33_erase_range h.order hxs hp.1 hp.2
  | eraseIf p => exact C33_erase_if hxs p
  | upsert other update =>
    obtain ⟨h1, h2, h3, h4⟩ := hp
    refine C33_upsert_partial h hk hxs update h1 h2 h3 (h4.imp fun {a b} hab => ?_)
    rintro ⟨x, hx, hs⟩
    obtain ⟨y, hy, hs'⟩ := hab ⟨x, (hxs.mem x).2 hx, hs⟩
    exact ⟨y, (hxs.mem y).1 hy, hs'⟩

/-- Any history of a map is a history of a mathematical map: after it the contents are the elements of that map, sorted by key, and looking up a key gives
what it maps the key to. Missing: as for `C33_insert_range_partial` and `C33_upsert_partial`. -/
theorem C33_history_partial {C : Cfg κ μ} (h : C.Ok) (hk : C.mv ≠ .clearSelf) : ∀ (ops : List (Op κ μ)) {S : κ × μ → Prop} {xs : List (κ × μ)}, C.Lists S xs → C.PreRun xs ops →
    ∃ ys S', C.run xs ops = some ys ∧ C.SpecRun S S' ops ∧ C.Lists S' ys ∧
      ∀ k, ∃ r, C.lookup ys k = some r ∧ ∀ v, r = some v ↔ ∃ k', S' (k', v) ∧ C.Same k' k
  | [], S, xs, hxs, _ => ⟨xs, S, rfl, rfl, hxs, fun k => C33_lookup h.order hxs k⟩
  | op :: ops, S, xs, hxs, hp => by
    obtain ⟨ys, S', e, h1, h2⟩ := h.step hk hxs op hp.1
    obtain ⟨zs, S'', e2, h3, h4, h5⟩ := C33_history_partial h hk ops h1 (hp.2 ys e)
    refine ⟨zs, S'', ?_, ⟨S', h2, h3⟩, h4, h5⟩
    rw [Cfg.run, e]
    exact e2

/-! ## Where they fail -/

/-- A map from numbers of two bytes to numbers. -/
def exCfg (std : Mem (Nat × Nat) → Nat → Nat → Option (Mem (Nat × Nat))) (mx : Nat) (mv : MoveKind) : Cfg Nat Nat where
  lt a b := decide (a % 65536 < b % 65536)
  eq a b := decide (a % 65536 = b % 65536)
  desc := .num 2 fun e => e.1 % 65536
  std := std
  merge := fun _ _ _ _ => none
  mv := mv
  mx := mx

theorem exCfg_ok {std : Mem (Nat × Nat) → Nat → Nat → Option (Mem (Nat × Nat))} (hstd : SortsBy (fun x y => decide (x.1 % 65536 < y.1 % 65536)) std) (mx : Nat) (mv : MoveKind) :
    (exCfg std mx mv).Ok where
  order := ⟨fun {a b} h => by simp only [exCfg, decide_eq_true_eq, decide_eq_false_iff_not] at *; omega,
    fun {a b c} h1 h2 => by simp only [exCfg, decide_eq_false_iff_not] at *; omega⟩
  eq a b := by
    simp only [exCfg]
    rw [Bool.eq_iff_iff]
    simp only [decide_eq_true_eq, Bool.and_eq_true, Bool.not_eq_true', decide_eq_false_iff_not]
    omega
  desc x y := rfl
  wf := by
    show (2 = 1 ∨ 2 % 2 = 0) ∧ ∀ x : Nat × Nat, x.1 % 65536 < 256 ^ 2
    exact ⟨by decide, fun x => Nat.mod_lt _ (by decide)⟩
  nonEmpty := by simp [exCfg, Desc.NonEmpty]
  plain := trivial
  std := hstd

/-- The assumptions can be met. -/
theorem exStd_sorts : SortsBy (fun x y : Nat × Nat => decide (x.1 % 65536 < y.1 % 65536)) (refSort fun x y => decide (x.1 % 65536 < y.1 % 65536)) :=
  refSort_sorts ⟨fun {a b} h => by simp only [decide_eq_true_eq, decide_eq_false_iff_not] at *; omega,
    fun {a b c} h1 h2 => by simp only [decide_eq_false_iff_not] at *; omega⟩

theorem sorted_pair_eq {C : Cfg κ μ} (ho : StrictWeak C.lt) {a b : κ × μ} {ys : List (κ × μ)} (hab : C.lt a.1 b.1 = true) (h : IsSort C.elt [a, b] ys) : ys = [a, b] := by
  have hl := h.perm.length_eq
  match ys, hl with
  | [x, y], _ =>
    have hs : C.elt y x = false := (List.pairwise_cons.1 h.sorted).1 y (by simp)
    have hx : x = a ∨ x = b := by
      have := h.perm.mem_iff.1 (show x ∈ [x, y] by simp)
      simpa using this
    rcases hx with rfl | rfl
    · have := List.perm_singleton.1 ((List.perm_cons _).1 h.perm)
      rw [this]
    · have hp : [x, y].Perm [x, a] := h.perm.trans (List.Perm.swap _ _ _)
      have := List.perm_singleton.1 ((List.perm_cons _).1 hp)
      simp only [List.cons.injEq, and_true] at this
      subst this
      rw [Cfg.elt, hab] at hs; cases hs

/-- The elements that `upsert` adds are not in order until its end, but it looks the others up by binary search among them. Here the key 5 is not found once the
key 1 has been added, so `update` is not called for it, and the map keeps the old value whatever `update` does. -/
theorem C33_upsert_violated {std : Mem (Nat × Nat) → Nat → Nat → Option (Mem (Nat × Nat))} (hstd : SortsBy (fun x y => decide (x.1 % 65536 < y.1 % 65536)) std)
    (update : Nat → Nat → Nat) :
    ∃ zs, (exCfg std 100 .keep).upsert [(5, 0)] [(1, 1), (5, 7)] update = some zs ∧ (exCfg std 100 .keep).lookup zs 5 = some (some 0) := by
  have h := exCfg_ok hstd 100 .keep
  have e : (exCfg std 100 .keep).upsertLoop update [(5, 0)] [(1, 1), (5, 7)] = some ([(5, 0)] ++ [(1, 1), (5, 7)]) := by
    have h1 : (exCfg std 100 .keep).find [(5, 0)] 1 = some 1 := (by decide +kernel : (exCfg (fun _ _ _ => none) 100 .keep).find [(5, 0)] 1 = some 1)
    have h2 : (exCfg std 100 .keep).find [(5, 0), (1, 1)] 5 = some 2 := (by decide +kernel : (exCfg (fun _ _ _ => none) 100 .keep).find [(5, 0), (1, 1)] 5 = some 2)
    rw [Cfg.upsertLoop, h1]
    show (exCfg std 100 .keep).upsertLoop update [(5, 0), (1, 1)] [(5, 7)] = _
    rw [Cfg.upsertLoop, h2]
    rfl
  obtain ⟨ys', zs, e2, -, hu⟩ := h.merge (by simp [exCfg]) (xs := [(5, 0)]) (ys := [(1, 1), (5, 7)]) (by simp) (.inl (.inl (by simp)))
  obtain ⟨h1, -, -⟩ := uniqued_append h.order (by simp) hu
  refine ⟨zs, ?_, ?_⟩
  · rw [Cfg.upsert]
    simp only [Option.bind_eq_bind]
    rw [e, Option.bind_some]
    exact e2
  · obtain ⟨r, e3, hr⟩ := C33_lookup h.order (S := (· ∈ zs)) ⟨hu.increasing, fun _ => Iff.rfl⟩ 5
    rw [e3, (hr 0).2 ⟨5, h1 _ (by simp), Cfg.Same.refl h.order _⟩]

/-- For mapped values that lose their value when they are move assigned to themselves, inserting a range can lose elements: here inserting 1 and 3 into the map with 2 leaves
an element without a value for 3. -/
theorem C33_self_move_violated {std : Mem (Nat × Nat) → Nat → Nat → Option (Mem (Nat × Nat))} (hstd : SortsBy (fun x y => decide (x.1 % 65536 < y.1 % 65536)) std) :
    (exCfg std 100 .clearSelf).sortFrom ([(2, 0)] ++ [(1, 0), (3, 0)]) 1 = some [(2, 0), (1, 0), (3, 0)] ∧
    (∃ m', uniqueInplaceMerge .clearSelf (exCfg std 100 .clearSelf).elt 3 (objs [(2, 0), (1, 0), (3, 0)]) 0 1 3 = some (m', 3) ∧ vals m' 2 = none) ∧
    (exCfg std 100 .clearSelf).insertRange false [(2, 0)] [(1, 0), (3, 0)] = none := by
  have h := exCfg_ok hstd 100 .clearSelf
  obtain ⟨ys, e, so⟩ := h.sortFrom (xs := [(2, 0)]) (ys := [(1, 0), (3, 0)]) (.inl (.inl (by simp)))
  rw [sorted_pair_eq h.order (by rfl) so] at e
  have e : (exCfg std 100 .clearSelf).sortFrom [(2, 0), (1, 0), (3, 0)] 1 = some [(2, 0), (1, 0), (3, 0)] := e
  refine ⟨e, ?_, ?_⟩
  · have key : (uniqueInplaceMerge .clearSelf (fun x y : Nat × Nat => decide (x.1 % 65536 < y.1 % 65536)) 3 (objs [(2, 0), (1, 0), (3, 0)]) 0 1 3).map (fun r => (r.2, vals r.1 2)) = some (3, none) := by
      decide +kernel
    obtain ⟨⟨m', n⟩, h1, h2⟩ := Option.map_eq_some_iff.1 key
    simp only [Prod.mk.injEq] at h2
    obtain ⟨rfl, h2⟩ := h2
    exact ⟨m', h1, h2⟩
  · have : (exCfg std 100 .clearSelf).append [(2, 0)] [(1, 0), (3, 0)] = some [(2, 0), (1, 0), (3, 0)] := rfl
    rw [Cfg.insertRange]
    simp only [Option.bind_eq_bind]
    rw [this, Option.bind_some, Cfg.mergeSortedAndUnsorted]
    simp only [Option.bind_eq_bind, List.length_singleton]
    rw [e, Option.bind_some]
    show ((uniqueInplaceMerge .clearSelf (fun x y : Nat × Nat => decide (x.1 % 65536 < y.1 % 65536)) 3 (objs [(2, 0), (1, 0), (3, 0)]) 0 1 3).bind fun r => readBack (vals r.1) r.2) = none
    decide +kernel

/-- A map whose key type has two values has room for two elements. A range cannot be inserted into it once it is full, though its keys are all there
and inserting the elements one by one has no effect. -/
theorem C33_room_violated (std : Mem (Nat × Nat) → Nat → Nat → Option (Mem (Nat × Nat))) :
    (exCfg std 2 .keep).insertRange false [(0, 0), (1, 0)] [(0, 5)] = none ∧
    (exCfg std 2 .keep).lazyInsert [(0, 0), (1, 0)] 0 5 = some ([(0, 0), (1, 0)], 0, false) :=
  ⟨rfl, (by decide +kernel : (exCfg (fun _ _ _ => none) 2 .keep).lazyInsert [(0, 0), (1, 0)] 0 5 = some ([(0, 0), (1, 0)], 0, false))⟩

/-- 129 elements with the keys 1, 0 and 127 times 256. -/
def badPairs : List (Nat × Nat) := badInput.map fun k => (k, 0)

set_option maxRecDepth 100000 in
theorem sortFrom_badPairs (std : Mem (Nat × Nat) → Nat → Nat → Option (Mem (Nat × Nat))) (mv : MoveKind) : (exCfg std 1000 mv).sortFrom badPairs 0 = some badPairs := by
  have key : ((do let ps ← partitionCounts (currentByte (fun e : Nat × Nat => e.1 % 65536) 1) (memOf badPairs) 0 129
                  flagMove (currentByte (fun e : Nat × Nat => e.1 % 65536) 1) ps (memOf badPairs) 0 129).map
      fun r : Mem (Nat × Nat) × Bool => (r.2, readBack r.1 129)) = some (true, some badPairs) := by decide +kernel
  obtain ⟨⟨m', e⟩, h1, h2⟩ := Option.map_eq_some_iff.1 key
  simp only [Prod.mk.injEq] at h2
  obtain ⟨rfl, h2⟩ := h2
  have h3 : skaSort std (.num 2 fun e : Nat × Nat => e.1 % 65536) (memOf badPairs) 0 129 = some (m', true) := americanFlagSort_early (done := false) h1
  rw [Cfg.sortFrom]
  have hl : badPairs.length = 129 := by decide +kernel
  rw [hl]
  have h3 : skaSort (exCfg std 1000 mv).std (exCfg std 1000 mv).desc (memOf badPairs) 0 (129 - 0) = some (m', true) := h3
  rw [h3]
  exact h2

set_option maxRecDepth 100000 in
/-- A map made from more than 128 elements can be unsorted, and then does not find its elements: here the key 1. -/
theorem C33_many_violated (std : Mem (Nat × Nat) → Nat → Nat → Option (Mem (Nat × Nat))) :
    (1, 0) ∈ badPairs ∧ (exCfg std 1000 .keep).construct false badPairs = some [(1, 0), (0, 0), (256, 0)] ∧
    (exCfg std 1000 .keep).lookup [(1, 0), (0, 0), (256, 0)] 1 = some none := by
  refine ⟨by decide +kernel, ?_, (by decide +kernel : (exCfg (fun _ _ _ => none) 1000 .keep).lookup [(1, 0), (0, 0), (256, 0)] 1 = some none)⟩
  have h5 : (exCfg std 1000 .keep).append [] badPairs = some badPairs := by
    exact (by decide +kernel : (exCfg (fun _ _ _ => none) 1000 .keep).append [] badPairs = some badPairs)
  rw [Cfg.construct, h5]
  simp only [Option.bind_eq_bind, Option.bind_some, Bool.false_eq_true, if_false]
  rw [Cfg.uniqueSkaSort, sortFrom_badPairs std .keep]
  show ((unique .keep (fun x y : Nat × Nat => decide (x.1 % 65536 = y.1 % 65536)) (objs badPairs) 0 badPairs.length).bind fun r => readBack (vals r.1) r.2) = _
  decide +kernel

/-! ## Examples -/

/-- The hypotheses of `C33_history_partial` hold for a history with all operations. -/
example : (exCfg (refSort fun x y => decide (x.1 % 65536 < y.1 % 65536)) 100 .clear).Ok ∧
    (exCfg (refSort fun x y => decide (x.1 % 65536 < y.1 % 65536)) 100 .clear).Lists (· ∈ [(1, 10), (4, 40)]) [(1, 10), (4, 40)] ∧
    (exCfg (refSort fun x y => decide (x.1 % 65536 < y.1 % 65536)) 100 .clear).PreRun [(1, 10), (4, 40)]
      [.insert 3 30, .erase 0, .insertRange [(2, 20)], .eraseRange 0 1, .upsert [(3, 5), (9, 90)] (· + ·), .eraseIf fun e => e.2 == 40] := by
  have hok := exCfg_ok exStd_sorts 100 .clear
  refine ⟨hok, ⟨by simp [exCfg], fun _ => Iff.rfl⟩, ?_⟩
  refine ⟨.inl (by decide), fun ys h => ?_⟩
  have : ys = [(1, 10), (3, 30), (4, 40)] := Option.some.inj (h.symm.trans (by decide +kernel))
  subst this
  refine ⟨show 0 < 3 by decide, fun ys h => ?_⟩
  have : ys = [(3, 30), (4, 40)] := Option.some.inj (h.symm.trans (by decide +kernel))
  subst this
  refine ⟨⟨by decide, .inl (.inl (by decide))⟩, fun ys h => ?_⟩
  have : ys = [(2, 20), (3, 30), (4, 40)] := Option.some.inj (h.symm.trans (by decide +kernel))
  subst this
  refine ⟨⟨by decide, by decide⟩, fun ys h => ?_⟩
  have : ys = [(3, 30), (4, 40)] := Option.some.inj (h.symm.trans (by decide +kernel))
  subst this
  refine ⟨⟨by decide, .inl (by decide), ?_, ?_⟩, fun ys h => ⟨trivial, fun _ _ => trivial⟩⟩
  · simp [Cfg.Same, exCfg]
  · simp [Cfg.Same, exCfg]

example : (exCfg (fun _ _ _ => none) 100 .clear).insertRange false [(1, 10), (3, 30), (5, 50)] [(3, 31)] = some [(1, 10), (3, 30), (5, 50)] := by decide +kernel
example : (exCfg (fun _ _ _ => none) 100 .clear).insertRange false [(1, 10), (3, 30), (5, 50)] [(4, 40)] = some [(1, 10), (3, 30), (4, 40), (5, 50)] := by decide +kernel

end Verif.Maps
