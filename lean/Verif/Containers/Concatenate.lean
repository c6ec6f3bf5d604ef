import Verif.Containers.MoveSource

/-!
# `concatenate` (property C49)

source/containers/algorithms/concatenate.cpp 36-148 for results with `set_size`. The arguments are ranges that are read, and rvalues of
the result type, which are objects in memory. The elements are not trivially copyable (trivially copyable ones are copied where these
are relocated, which makes no difference to the result).
-/

namespace Verif.Containers

open Verif Impl Lawful

variable {V O : Type}

/-- An argument of `concatenate`: a range whose elements are copied, or the rvalue object `k` of the result type. -/
inductive Arg (V : Type) where
  | items (src : List (Item V))
  | own (k : Nat)
  deriving DecidableEq

namespace Impl

/-- `linear_size(range)`. -/
def argSize (I : Impl V O) (w : Nat → O) : Arg V → Nat
  | .items src => src.length
  | .own k => I.size (w k)

/-- `algorithms/concatenate.cpp` 61-73, 128-129 `reusable_concatenate_container`: the first rvalue whose capacity suffices, and the number of elements before
it. The outer `none` is a failed assertion of `capacity()`. -/
def reusable (I : Impl V O) (w : Nat → O) (total : Nat) : List (Arg V) → Nat → Option (Option (Nat × Nat))
  | [], _ => some none
  | .items src :: rest, before => reusable I w total rest (before + src.length)
  | .own k :: rest, before =>
    match I.capacity (w k) with
    | none => none
    | some cap => if total ≤ cap then some (some (k, before)) else reusable I w total rest (before + I.size (w k))

/-- `uninitialized_copy_no_overlap(range, data(result) + pos)`: the elements of an rvalue are relocated and its size becomes zero
(source/containers/algorithms/copy_or_relocate_from.cpp 40-44). -/
def copyArg (I : Impl V O) (h : Heap V) (w : Nat → O) (r pos : Nat) : Arg V → Out (Heap V × (Nat → O))
  | .items src =>
    match I.copyAt h (w r) pos src with
    | .ok (h', o') => .ok (h', upd w r o')
    | .exn (h', o') => .exn (h', upd w r o')
    | .ub => .ub
  | .own k =>
    match I.relocInto h (w k) (w r) 0 pos (I.size (w k)) with
    | none => .ub
    | some (h', o', t') =>
      match I.setSize o' 0 with
      | none => .ub
      | some o'' => .ok (h', upd (upd w r t') k o'')

/-- source/containers/append_into_capacity.cpp 34-40. -/
def appendArg (I : Impl V O) (h : Heap V) (w : Nat → O) (r : Nat) (a : Arg V) : Out (Heap V × (Nat → O)) :=
  match I.copyArg h w r (I.size (w r)) a with
  | .ub => .ub
  | .exn s => .exn s
  | .ok (h', w') =>
    match I.setSize (w' r) (I.size (w r) + I.argSize w a) with
    | none => .ub
    | some o' => .ok (h', upd w' r o')

/-- `algorithms/concatenate.cpp` 47 and 146: append the ranges in order. -/
def appendArgs (I : Impl V O) (r : Nat) : List (Arg V) → Heap V → (Nat → O) → Out (Heap V × (Nat → O))
  | [], h, w => .ok (h, w)
  | a :: rest, h, w =>
    match I.appendArg h w r a with
    | .ub => .ub
    | .exn s => .exn s
    | .ok (h', w') => appendArgs I r rest h' w'

/-- `algorithms/concatenate.cpp` 36-53 `concatenate_prepend_append`: the ranges before the reused one are copied to `it` onwards, the others are appended. -/
def prependAppend (I : Impl V O) (r : Nat) : List (Arg V) → Nat → Heap V → (Nat → O) → Out (Heap V × (Nat → O))
  | [], _, _, _ => .ub
  | a :: rest, it, h, w =>
    if isOwn a r then appendArgs I r rest h w
    else
      match I.copyArg h w r it a with
      | .ub => .ub
      | .exn s => .exn s
      | .ok (h', w') => prependAppend I r rest (it + I.argSize w a) h' w'
where
  /-- line 46 -/
  isOwn : Arg V → Nat → Bool
    | .items _, _ => false
    | .own k, r => k == r

/-- `algorithms/concatenate.cpp` 100-106 `move_existing_data_to_final_position`. -/
def moveExisting (I : Impl V O) (h : Heap V) (o : O) (before : Nat) : Option (Heap V × O) :=
  match I.modify h o fun cap m => relocBack cap m (I.size o) (before + I.size o) (I.size o) with
  | none => none
  | some (h', o') =>
    match I.setSize o' (I.size o + before) with
    | none => none
    | some o'' => some (h', o'')

/-- `algorithms/concatenate.cpp` 122-148 `concatenate`. The result is the object `r`: the reused argument, which `algorithms/concatenate.cpp` 136 moves from, or the new object `res`.
`al` says which allocations fail: the default constructor of the result, then `reserve`. A result without `reserve` compiles only if its
capacity always suffices (`algorithms/concatenate.cpp` 142). -/
def concatenate (I : Impl V O) (h : Heap V) (w : Nat → O) (res : Nat) (al : Nat → Bool) (args : List (Arg V)) : Out (Heap V × (Nat → O) × Nat) :=
  let total := (args.map (I.argSize w)).sum
  match I.reusable w total args 0 with
  | none => .ub
  | some (some (r, before)) =>
    match (if before = 0 then some (h, w r) else I.moveExisting h (w r) before) with
    | none => .ub
    | some (h1, o1) => (I.prependAppend r args 0 h1 (upd w r o1)).bind (fun s => .ok (s.1, s.2, r)) (fun s => (s.1, s.2, r))
  | some none =>
    match I.new h (al 0) with
    | .exn => .exn (h, w, res)
    | .ub => .ub
    | .ok (h1, t) =>
      if I.reservable ∧ I.mx < total then .ub
      else
        match (if I.reservable then I.reserve h1 t total (al 1) else .ok (h1, t)) with
        | .ub => .ub
        | .exn (h2, t2) =>
          match I.dtor h2 t2 with
          | none => .ub
          | some h3 => .exn (h3, w, res)
        | .ok (h2, t2) =>
          match I.appendArgs res args h2 (upd w res t2) with
          | .ok (h3, w3) => .ok (h3, w3, res)
          | .ub => .ub
          | .exn (h3, w3) =>
            match I.dtor h3 (w3 res) with
            | none => .ub
            | some h4 => .exn (h4, w3, res)

end Impl

/-! ## Objects that do not share storage -/

variable {I : Impl V O} {mn : Nat} {mkA : Bool} {L : Lawful I mn mkA}

/-- Each of the objects with `v k = some (capacity, slots, size)` is usable and looks like this, and no two of them share storage. -/
structure Views (L : Lawful I mn mkA) (h : Heap V) (w : Nat → O) (v : Nat → Option (Nat × Cells V × Nat)) : Prop where
  at' : ∀ {k cap c n}, v k = some (cap, c, n) → L.View h (w k) cap c n
  apart : ∀ {j k}, j ≠ k → (v j).isSome → (v k).isSome → I.Apart (w j) (w k)

theorem Views.view {h : Heap V} {w : Nat → O} {v : Nat → Option (Nat × Cells V × Nat)} (s : Views L h w v) {k : Nat} (hk : (v k).isSome) :
    ∃ cap c n, L.View h (w k) cap c n := by
  obtain ⟨⟨cap, c, n⟩, e⟩ := Option.isSome_iff_exists.1 hk
  exact ⟨cap, c, n, s.at' e⟩

/-- A step on one of the objects, or the construction of one. -/
theorem Views.step {h h' : Heap V} {w : Nat → O} {v : Nat → Option (Nat × Cells V × Nat)} (s : Views L h w v) {r : Nat} {o' : O} {G : Nat → Prop}
    {cap n : Nat} {c : Cells V} (v' : L.View h' o' cap c n) (fr : Frame G h (I.own o') h')
    (hG : ∀ k, k ≠ r → (v k).isSome → ∀ b, I.own (w k) b → ¬ G b) : Views L h' (upd w r o') (upd v r (some (cap, c, n))) := by
  have hap : ∀ k, k ≠ r → (v k).isSome → I.Apart o' (w k) := fun k hk hs => by
    obtain ⟨_, _, _, vk⟩ := s.view hs
    exact vk.apart fr (hG k hk hs)
  constructor
  · intro k cap' c' n' e
    by_cases hk : k = r
    · subst hk
      rw [upd_same] at e ⊢
      cases e
      exact v'
    · rw [upd_other _ _ hk] at e ⊢
      exact (s.at' e).keep fr (hG k hk (by rw [e]; rfl))
  · intro j k hjk hj hk
    by_cases h1 : j = r
    · subst h1
      rw [upd_same, upd_other _ _ (Ne.symm hjk)]
      rw [upd_other _ _ (Ne.symm hjk)] at hk
      exact hap k (Ne.symm hjk) hk
    · rw [upd_other _ _ h1] at hj ⊢
      by_cases h2 : k = r
      · subst h2
        rw [upd_same]
        exact (hap j h1 hj).symm
      · rw [upd_other _ _ h2] at hk ⊢
        exact s.apart hjk hj hk

/-- A step on two of the objects. -/
theorem Views.step2 {h h' : Heap V} {w : Nat → O} {v : Nat → Option (Nat × Cells V × Nat)} (s : Views L h w v) {r k : Nat} (hrk : r ≠ k)
    (hr : (v r).isSome) (hk : (v k).isSome) {o' t' : O} {cap n cap' n' : Nat} {c c' : Cells V} (tw : Two L h' o' t' cap c n cap' c' n')
    (fr : Frame (both I (w r) (w k)) h (both I t' o') h') :
    Views L h' (upd (upd w r t') k o') (upd (upd v r (some (cap', c', n'))) k (some (cap, c, n))) := by
  have hG : ∀ i, i ≠ r → i ≠ k → (v i).isSome → ∀ b, I.own (w i) b → ¬ both I (w r) (w k) b := fun i h1 h2 h3 b hb hb' => by
    rcases hb' with hb' | hb'
    · exact s.apart h1 h3 hr b hb hb'
    · exact s.apart h2 h3 hk b hb hb'
  have hap : ∀ i, i ≠ r → i ≠ k → (v i).isSome → ∀ b, I.own (w i) b → ¬ both I t' o' b := fun i h1 h2 h3 b hb hb' => by
    obtain ⟨_, _, _, vi⟩ := s.view h3
    exact L.wf_owned vi.1 hb (fr.new b (hG i h1 h2 h3 b hb) hb')
  constructor
  · intro i cap2 c2 n2 e
    by_cases h1 : i = k
    · subst h1
      rw [upd_same] at e ⊢
      cases e
      exact tw.vo
    · rw [upd_other _ _ h1] at e ⊢
      by_cases h2 : i = r
      · subst h2
        rw [upd_same] at e ⊢
        cases e
        exact tw.vt
      · rw [upd_other _ _ h2] at e ⊢
        exact (s.at' e).keep fr (hG i h2 h1 (by rw [e]; rfl))
  · intro i j hij hi hj
    have key : ∀ i j, i ≠ j → (upd (upd v r (some (cap', c', n'))) k (some (cap, c, n)) i).isSome → j = k →
        I.Apart (upd (upd w r t') k o' i) (upd (upd w r t') k o' j) := by
      intro i j hij hi hjk
      subst hjk
      rw [upd_same]
      rw [upd_other _ _ hij] at hi ⊢
      by_cases h2 : i = r
      · subst h2; rw [upd_same]; exact tw.apart
      · rw [upd_other _ _ h2] at hi ⊢
        exact fun b hb hb' => hap i h2 hij hi b hb (.inr hb')
    by_cases h1 : j = k
    · exact key i j hij hi h1
    · by_cases h2 : i = k
      · exact (key j i (Ne.symm hij) hj h2).symm
      · rw [upd_other _ _ h2] at hi ⊢
        rw [upd_other _ _ h1] at hj ⊢
        by_cases h3 : j = r
        · subst h3
          rw [upd_same]
          rw [upd_other _ _ hij] at hi ⊢
          exact fun b hb hb' => hap i hij h2 hi b hb (.inl hb')
        · rw [upd_other _ _ h3] at hj ⊢
          by_cases h4 : i = r
          · subst h4
            rw [upd_same]
            exact fun b hb hb' => hap j h3 h1 hj b hb' (.inl hb)
          · rw [upd_other _ _ h4] at hi ⊢
            exact s.apart hij hi hj

theorem Views.mono {h : Heap V} {w : Nat → O} {v v' : Nat → Option (Nat × Cells V × Nat)} (s : Views L h w v) (e : v = v') : Views L h w v' := e ▸ s

/-- The rvalues among the arguments. -/
def owns : List (Arg V) → List Nat
  | [] => []
  | .items _ :: rest => owns rest
  | .own k :: rest => k :: owns rest

/-- The elements of an argument, `cont k` being those of the object `k`. -/
def Arg.elems (cont : Nat → List V) : Arg V → List V
  | .items src => src.map (·.val)
  | .own k => cont k

/-- No element of the argument throws when it is copied. -/
def Arg.quiet : Arg V → Prop
  | .items src => ∀ it ∈ src, it.throws = false
  | .own _ => True


/-- What each object owns: the address of its storage, the cells, the number of elements. -/
abbrev ObjView (V : Type) := Nat → Option (Nat × Cells V × Nat)

/-- The objects after the elements of these arguments were taken. -/
def drained (v : ObjView V) (args : List (Arg V)) : ObjView V := fun k =>
  if k ∈ owns args then (v k).map fun t => (t.1, fun _ => none, 0) else v k

/-- The arguments other than `r` are objects with these elements. -/
def ArgsAre (v : ObjView V) (r : Nat) (cont : Nat → List V) (capf : Nat → Nat) (args : List (Arg V)) : Prop :=
  (∀ a ∈ args, a.quiet) ∧ (owns args).Nodup ∧
    ∀ k ∈ owns args, k ≠ r ∧ v k = some (capf k, cells (cont k), (cont k).length) ∧ (cont k).length ≤ capf k

theorem owns_cons (a : Arg V) (args : List (Arg V)) : owns (a :: args) = owns [a] ++ owns args := by
  cases a <;> rfl

theorem owns_append (as bs : List (Arg V)) : owns (as ++ bs) = owns as ++ owns bs := by
  induction as with
  | nil => rfl
  | cons a as ih => rw [List.cons_append, owns_cons, ih, owns_cons a as, List.append_assoc]

theorem argSize_eq {h : Heap V} {w : Nat → O} {v : ObjView V} (s : Views L h w v) {cont : Nat → List V} {a : Arg V}
    (ha : ∀ k ∈ owns [a], ∃ cap, v k = some (cap, cells (cont k), (cont k).length)) : I.argSize w a = (a.elems cont).length := by
  cases a with
  | items src => simp [argSize, Arg.elems]
  | own k =>
    obtain ⟨cap, e⟩ := ha k (by simp [owns])
    exact (s.at' e).2.2

theorem copyArg_eq {h : Heap V} {w : Nat → O} {v : ObjView V} (s : Views L h w v) {r : Nat} {capr n : Nat} {c : Cells V} (hr : v r = some (capr, c, n))
    {cont : Nat → List V} {capf : Nat → Nat} {a : Arg V} (ha : ArgsAre v r cont capf [a]) {pos : Nat} (hroom : pos + (a.elems cont).length ≤ capr)
    (hraw : ∀ j, pos ≤ j → j < pos + (a.elems cont).length → c j = none) :
    ∃ h' w', I.copyArg h w r pos a = .ok (h', w') ∧ Views L h' w' (upd (drained v [a]) r (some (capr, written c pos (a.elems cont), n))) := by
  obtain ⟨hq, -, ho⟩ := ha
  cases a with
  | items src =>
    have hlen : (Arg.elems cont (.items src)).length = src.length := by simp [Arg.elems]
    rw [hlen] at hroom hraw
    have hn : noThrow src = true := by
      simp only [noThrow, Bool.not_eq_true', List.any_eq_false]
      intro it hit
      have := hq (.items src) (by simp) it hit
      simp [this]
    obtain ⟨h', o', e, v', -, fr⟩ := (s.at' hr).copyAt hroom hraw
    rw [hn] at e v'
    have e : I.copyAt h (w r) pos src = .ok (h', o') := e
    simp only [if_true] at v'
    refine ⟨h', upd w r o', by simp only [copyArg, e], ?_⟩
    have := s.step (r := r) v' fr (fun k hk hs b hb hb' => s.apart hk hs (by rw [hr]; rfl) b hb hb')
    refine this.mono ?_
    funext k
    by_cases hk : k = r
    · subst hk; rw [upd_same, upd_same]; rfl
    · rw [upd_other _ _ hk, upd_other _ _ hk]; rfl
  | own k =>
    obtain ⟨hkr, hv, hle⟩ := ho k (by simp [owns])
    have hroom : pos + (cont k).length ≤ capr := hroom
    have tw : Two L h (w k) (w r) (capf k) (cells (cont k)) (cont k).length capr c n :=
      ⟨s.at' hv, s.at' hr, s.apart (Ne.symm hkr) (by rw [hr]; rfl) (by rw [hv]; rfl)⟩
    obtain ⟨h', o', t', e, tw', fr, -⟩ := tw.reloc (src := 0) (dst := pos) (cont k) (by omega) hroom
      (fun j hj => by rw [Nat.zero_add]; simp [cells, hj]) hraw
    obtain ⟨o'', e2, v2, ho2⟩ := tw'.vo.setSize (n' := 0) (by omega)
    have tw2 : Two L h' o'' t' (capf k) (cleared (cells (cont k)) 0 (cont k).length) 0 capr (written c pos (cont k)) n :=
      ⟨v2, tw'.vt, fun b h1 h2 => tw'.apart b h1 (by rw [← ho2]; exact h2)⟩
    have hsz := (s.at' hv).2.2
    refine ⟨h', upd (upd w r t') k o'', by simp only [copyArg, hsz, e, e2], ?_⟩
    have := s.step2 (r := r) (k := k) (Ne.symm hkr) (by rw [hr]; rfl) (by rw [hv]; rfl) tw2 (fr.congr (fun b => Iff.rfl) (fun b => by
      simp only [both, ho2]))
    refine this.mono ?_
    have hcl : cleared (cells (cont k)) 0 (cont k).length = fun _ => none := by
      funext j
      simp only [cleared, cells]
      split
      · rfl
      · exact List.getElem?_eq_none (by omega)
    funext i
    by_cases h1 : i = k
    · subst h1
      rw [upd_same, upd_other _ _ hkr, drained, if_pos (by simp [owns]), hv, hcl]; rfl
    · rw [upd_other _ _ h1]
      by_cases h2 : i = r
      · subst h2; rw [upd_same, upd_same]; rfl
      · rw [upd_other _ _ h2, upd_other _ _ h2, drained, if_neg (by simp [owns, h1])]

theorem ArgsAre.head {v : ObjView V} {r : Nat} {cont : Nat → List V} {capf : Nat → Nat} {a : Arg V} {rest : List (Arg V)}
    (h : ArgsAre v r cont capf (a :: rest)) : ArgsAre v r cont capf [a] := by
  obtain ⟨h1, h2, h3⟩ := h
  rw [owns_cons] at h2 h3
  refine ⟨fun b hb => h1 b (by simp at hb; simp [hb]), (List.nodup_append.1 h2).1, fun k hk => h3 k (by simp [hk])⟩

/-- The other arguments are as they were after the first one was used. -/
theorem ArgsAre.tail {v : ObjView V} {r : Nat} {cont : Nat → List V} {capf : Nat → Nat} {a : Arg V} {rest : List (Arg V)}
    (h : ArgsAre v r cont capf (a :: rest)) (x : Option (Nat × Cells V × Nat)) : ArgsAre (upd (drained v [a]) r x) r cont capf rest := by
  obtain ⟨h1, h2, h3⟩ := h
  rw [owns_cons] at h2 h3
  refine ⟨fun b hb => h1 b (by simp [hb]), (List.nodup_append.1 h2).2.1, fun k hk => ?_⟩
  obtain ⟨g1, g2, g3⟩ := h3 k (by simp [hk])
  refine ⟨g1, ?_, g3⟩
  rw [upd_other _ _ g1, drained, if_neg, g2]
  intro hk'
  exact (List.nodup_append.1 h2).2.2 _ hk' _ hk rfl

theorem drained_cons (v : ObjView V) (a : Arg V) (rest : List (Arg V)) (r : Nat) (x y : Option (Nat × Cells V × Nat)) :
    upd (drained (upd (drained v [a]) r x) rest) r y = upd (drained v (a :: rest)) r y := by
  funext k
  by_cases hk : k = r
  · subst hk; rw [upd_same, upd_same]
  · rw [upd_other _ _ hk, upd_other _ _ hk]
    simp only [drained, upd_other _ _ hk]
    rw [owns_cons a rest]
    by_cases h1 : k ∈ owns [a] <;> by_cases h2 : k ∈ owns rest <;> simp [h1, h2]
    rfl

theorem appendArgs_eq {r : Nat} {cont : Nat → List V} {capf : Nat → Nat} {capr : Nat} : ∀ {args : List (Arg V)} {h : Heap V} {w : Nat → O}
    {v : ObjView V} {xs : List V}, Views L h w v → v r = some (capr, cells xs, xs.length) → ArgsAre v r cont capf args →
    xs.length + (args.flatMap (Arg.elems cont)).length ≤ capr →
    ∃ h' w', I.appendArgs r args h w = .ok (h', w') ∧
      Views L h' w' (upd (drained v args) r (some (capr, cells (xs ++ args.flatMap (Arg.elems cont)), (xs ++ args.flatMap (Arg.elems cont)).length)))
  | [], h, w, v, xs, s, hr, _, _ => by
    refine ⟨h, w, rfl, s.mono ?_⟩
    funext k
    by_cases hk : k = r
    · subst hk; rw [upd_same, hr]; simp
    · rw [upd_other _ _ hk]; simp [drained, owns]
  | a :: rest, h, w, v, xs, s, hr, ha, hroom => by
    simp only [List.flatMap_cons, List.length_append] at hroom
    have hsz := (s.at' hr).2.2
    obtain ⟨h1, w1, e1, s1⟩ := copyArg_eq s hr ha.head (pos := xs.length) (by omega) (fun j hj _ => cells_raw hj)
    have hv := s1.at' (upd_same _ _ _)
    obtain ⟨o', e2, v2, ho2⟩ := hv.setSize (n' := xs.length + (a.elems cont).length) (by omega)
    have hsa : I.argSize w a = (a.elems cont).length := argSize_eq s (fun k hk => ⟨_, ((ha.head).2.2 k hk).2.1⟩)
    rw [written_cells] at v2
    have s2 := s1.step (r := r) v2 ((Frame.refl (I.own (w1 r)) h1).congr (fun _ => Iff.rfl) (fun b => by rw [ho2]))
      (fun k hk hs b hb hb' => s1.apart hk hs (by rw [upd_same]; rfl) b hb hb')
    have hx : upd (upd (drained v [a]) r (some (capr, written (cells xs) xs.length (a.elems cont), xs.length))) r
        (some (capr, cells (xs ++ a.elems cont), xs.length + (a.elems cont).length)) =
        upd (drained v [a]) r (some (capr, cells (xs ++ a.elems cont), (xs ++ a.elems cont).length)) := by
      funext k
      by_cases hk : k = r
      · subst hk; rw [upd_same, upd_same, List.length_append]
      · rw [upd_other _ _ hk, upd_other _ _ hk, upd_other _ _ hk]
    obtain ⟨h3, w3, e3, s3⟩ := appendArgs_eq (args := rest) (s2.mono hx) (upd_same _ _ _) (ha.tail _) (by
      rw [List.length_append]; omega)
    refine ⟨h3, w3, ?_, ?_⟩
    · simp only [appendArgs, appendArg, hsz, e1, hsa, e2]
      exact e3
    · rw [drained_cons] at s3
      simpa only [List.flatMap_cons, List.append_assoc] using s3

/-- The slots of the reused container while the elements before its own are filled in. -/
def gap (P X : List V) (before : Nat) : Cells V := fun j => if j < before then P[j]? else X[j - before]?

theorem gap_written {P X ys : List V} {before : Nat} (h : P.length + ys.length ≤ before) :
    written (gap P X before) P.length ys = gap (P ++ ys) X before := by
  funext j
  simp only [written, gap]
  by_cases h1 : P.length ≤ j ∧ j < P.length + ys.length
  · rw [if_pos h1, if_pos (by omega), List.getElem?_append_right (by omega)]
  · rw [if_neg h1]
    by_cases h2 : j < before
    · rw [if_pos h2, if_pos h2]
      by_cases h3 : j < P.length
      · rw [List.getElem?_append_left h3]
      · rw [List.getElem?_eq_none (by omega), List.getElem?_eq_none (by rw [List.length_append]; omega)]
    · rw [if_neg h2, if_neg h2]

theorem gap_full {P X : List V} : gap P X P.length = cells (P ++ X) := by
  funext j
  simp only [gap, cells]
  by_cases h : j < P.length
  · rw [if_pos h, List.getElem?_append_left h]
  · rw [if_neg h, List.getElem?_append_right (by omega)]

theorem prependAppend_eq {r : Nat} {cont : Nat → List V} {capf : Nat → Nat} {capr before : Nat} {X : List V} {post : List (Arg V)} :
    ∀ {pre : List (Arg V)} {h : Heap V} {w : Nat → O} {v : ObjView V} {P : List V}, Views L h w v →
    v r = some (capr, gap P X before, X.length + before) → ArgsAre v r cont capf (pre ++ post) →
    P.length + (pre.flatMap (Arg.elems cont)).length = before → before + X.length + (post.flatMap (Arg.elems cont)).length ≤ capr →
    ∃ h' w' n, I.prependAppend r (pre ++ .own r :: post) P.length h w = .ok (h', w') ∧
      n = (P ++ pre.flatMap (Arg.elems cont) ++ X ++ post.flatMap (Arg.elems cont)).length ∧
      Views L h' w' (upd (drained v (pre ++ post)) r
        (some (capr, cells (P ++ pre.flatMap (Arg.elems cont) ++ X ++ post.flatMap (Arg.elems cont)), n)))
  | [], h, w, v, P, s, hr, ha, hb, hroom => by
    simp only [List.flatMap_nil, List.length_nil, Nat.add_zero] at hb
    subst hb
    rw [gap_full] at hr
    have hr : v r = some (capr, cells (P ++ X), (P ++ X).length) := by rw [hr, List.length_append, Nat.add_comm]
    obtain ⟨h', w', e, s'⟩ := appendArgs_eq (args := post) s hr ha (by rw [List.length_append]; omega)
    refine ⟨h', w', _, ?_, rfl, ?_⟩
    · simp only [List.nil_append, prependAppend, prependAppend.isOwn, beq_self_eq_true, if_true]
      exact e
    · simpa using s'
  | a :: pre, h, w, v, P, s, hr, ha, hb, hroom => by
    simp only [List.flatMap_cons, List.length_append] at hb
    have hne : prependAppend.isOwn a r = false := by
      cases a with
      | items src => rfl
      | own k =>
        have := (ha.2.2 k (by simp [owns])).1
        simp [prependAppend.isOwn, this]
    have hcap : before + X.length ≤ capr := by omega
    obtain ⟨h1, w1, e1, s1⟩ := copyArg_eq s hr (ArgsAre.head ha) (pos := P.length) (by omega) (fun j h1 h2 => by
      simp only [gap]; rw [if_pos (by omega)]; exact List.getElem?_eq_none h1)
    have hsa : I.argSize w a = (a.elems cont).length := argSize_eq s (fun k hk => ⟨_, ((ArgsAre.head ha).2.2 k hk).2.1⟩)
    rw [gap_written (by omega)] at s1
    obtain ⟨h2, w2, n, e2, hn, s2⟩ := prependAppend_eq (pre := pre) s1 (upd_same _ _ _) (ArgsAre.tail ha _)
      (by rw [List.length_append]; omega) hroom
    refine ⟨h2, w2, n, ?_, ?_, ?_⟩
    · simp only [List.cons_append, prependAppend, hne, Bool.false_eq_true, if_false, e1, hsa]
      rw [List.length_append] at e2
      exact e2
    · rw [hn]; simp only [List.flatMap_cons, List.append_assoc]
    · rw [drained_cons] at s2
      simpa only [List.flatMap_cons, List.append_assoc, List.cons_append] using s2

theorem reusable_eq {h : Heap V} {w : Nat → O} {v : ObjView V} (s : Views L h w v) {cont : Nat → List V} {capf : Nat → Nat} {total : Nat} :
    ∀ {args : List (Arg V)} {b : Nat}, (∀ k ∈ owns args, v k = some (capf k, cells (cont k), (cont k).length)) →
    I.reusable w total args b = some none ∨ ∃ pre r post, args = pre ++ .own r :: post ∧ total ≤ capf r ∧
      I.reusable w total args b = some (some (r, b + (pre.flatMap (Arg.elems cont)).length))
  | [], b, _ => .inl rfl
  | .items src :: rest, b, ha => by
    rcases reusable_eq s (args := rest) (b := b + src.length) (fun k hk => ha k hk) with e | ⟨pre, r, post, e1, e2, e3⟩
    · exact .inl e
    · refine .inr ⟨.items src :: pre, r, post, by rw [e1]; rfl, e2, ?_⟩
      simp only [reusable, e3, List.flatMap_cons, Arg.elems, List.length_append, List.length_map]
      rw [Nat.add_assoc]
  | .own k :: rest, b, ha => by
    have hv := s.at' (ha k (by simp [owns]))
    have hc := hv.cap
    have hs := hv.2.2
    by_cases ht : total ≤ capf k
    · refine .inr ⟨[], k, rest, rfl, ht, ?_⟩
      simp only [reusable, hc, if_pos ht]
      simp
    · rcases reusable_eq s (total := total) (args := rest) (b := b + I.size (w k)) (fun j hj => ha j (by simp [owns, hj])) with e | ⟨pre, r, post, e1, e2, e3⟩
      · left; simp only [reusable, hc, if_neg ht, e]
      · refine .inr ⟨.own k :: pre, r, post, by rw [e1]; rfl, e2, ?_⟩
        simp only [reusable, hc, if_neg ht, e3, List.flatMap_cons, Arg.elems, List.length_append]
        rw [hs, Nat.add_assoc]


theorem moveExisting_eq {h : Heap V} {o : O} {cap before : Nat} {X : List V} (v : L.View h o cap (cells X) X.length) (hb : before ≠ 0)
    (hroom : before + X.length ≤ cap) : ∃ h' o', I.moveExisting h o before = some (h', o') ∧ L.View h' o' cap (gap [] X before) (X.length + before) ∧
      Frame (I.own o) h (I.own o') h' := by
  have hs := v.2.2
  have e := relocBack_eq cap X.length (cells X) 0 before (by omega) hroom (fun j _ h2 => cells_live (by omega)) (fun j h1 _ _ => cells_raw (by omega))
  rw [Nat.zero_add] at e
  obtain ⟨h', o', e1, v1, ho, fr⟩ := v.modify (f := fun cap m => relocBack cap m X.length (before + X.length) X.length) e
  obtain ⟨o'', e2, v2, ho2⟩ := v1.setSize (n' := X.length + before) (by omega)
  refine ⟨h', o'', by simp only [moveExisting, hs, e1, e2], ?_, fr.congr (fun _ => Iff.rfl) (fun b => by rw [ho2])⟩
  have hg : shifted (cells X) 0 before X.length = gap [] X before := by
    funext j
    simp only [shifted, gap, cells]
    by_cases h1 : j < before
    · rw [if_pos h1, if_neg (by omega)]
      split
      · simp
      · rw [List.getElem?_eq_none (by omega)]; simp
    · rw [if_neg h1]
      by_cases h2 : j < before + X.length
      · rw [if_pos (by omega), Nat.add_zero]
      · rw [if_neg (by omega), if_neg (by omega), List.getElem?_eq_none (by omega), List.getElem?_eq_none (by omega)]
  rwa [hg] at v2

/-- The sizes add up to the number of elements. -/
theorem total_eq {h : Heap V} {w : Nat → O} {v : ObjView V} (s : Views L h w v) {cont : Nat → List V} {capf : Nat → Nat} : ∀ {args : List (Arg V)},
    (∀ k ∈ owns args, v k = some (capf k, cells (cont k), (cont k).length)) →
    (args.map (I.argSize w)).sum = (args.flatMap (Arg.elems cont)).length
  | [], _ => rfl
  | a :: rest, ha => by
    rw [owns_cons] at ha
    rw [List.map_cons, List.sum_cons, List.flatMap_cons, List.length_append, total_eq s (fun k hk => ha k (by simp [hk])),
      argSize_eq s (fun k hk => ⟨_, ha k (by simp [hk])⟩)]

/-- **C49** (without exceptions from the elements): `concatenate` of any number of ranges of any lengths, rvalues of the result type
among them, whatever their capacities. It returns a container with the elements of all arguments in order, whichever storage was
reused: the result `r` is the new object or one of the rvalues, and all other rvalues are left empty. -/
theorem C49_concatenate_partial {h : Heap V} {w : Nat → O} {args : List (Arg V)} {cont : Nat → List V} {capf : Nat → Nat} {res : Nat}
    (hrep : ∀ k ∈ owns args, L.Rep h (w k) (cont k) (capf k)) (hap : ∀ j ∈ owns args, ∀ k ∈ owns args, j ≠ k → I.Apart (w j) (w k))
    (hnd : (owns args).Nodup) (hres : res ∉ owns args) (hq : ∀ a ∈ args, a.quiet) (hf : Fresh h) {al : Nat → Bool}
    (hal : al 0 = false ∧ al 1 = false) (hmx : (args.flatMap (Arg.elems cont)).length ≤ I.mx)
    (hcap : I.reservable = false → (args.flatMap (Arg.elems cont)).length ≤ mn) :
    ∃ h' w' r cap', I.concatenate h w res al args = .ok (h', w', r) ∧ L.Rep h' (w' r) (args.flatMap (Arg.elems cont)) cap' ∧
      (r = res ∨ r ∈ owns args) ∧ ∀ k ∈ owns args, k ≠ r → L.Rep h' (w' k) [] (capf k) := by
  obtain ⟨v, hv⟩ : ∃ v : ObjView V, v = fun k => if k ∈ owns args then some (capf k, cells (cont k), (cont k).length) else none := ⟨_, rfl⟩
  have hvk : ∀ k ∈ owns args, v k = some (capf k, cells (cont k), (cont k).length) := fun k hk => by rw [hv]; simp [hk]
  have hvn : ∀ k, k ∉ owns args → v k = none := fun k hk => by rw [hv]; simp [hk]
  have hmem : ∀ k, (v k).isSome → k ∈ owns args := fun k hk => by
    by_contra hc; rw [hvn k hc] at hk; cases hk
  have s : Views L h w v := by
    refine ⟨?_, fun {j k} hjk hj hk => hap j (hmem j hj) k (hmem k hk) hjk⟩
    intro k cap c n e
    have hk := hmem k (by rw [e]; rfl)
    rw [hvk k hk] at e
    cases e
    exact (hrep k hk).view
  have htot := total_eq s hvk
  obtain ⟨xs, hxs⟩ : ∃ xs, args.flatMap (Arg.elems cont) = xs := ⟨_, rfl⟩
  have finish : ∀ {h' : Heap V} {w' : Nat → O} {r cap' : Nat} {args' : List (Arg V)} {v' : ObjView V}, (∀ k, k ≠ r → v' k = v k) →
      (∀ k ∈ owns args, k ≠ r → k ∈ owns args') → xs.length ≤ cap' → Views L h' w' (upd (drained v' args') r (some (cap', cells xs, xs.length))) →
      L.Rep h' (w' r) xs cap' ∧ ∀ k ∈ owns args, k ≠ r → L.Rep h' (w' k) [] (capf k) := by
    intro h' w' r cap' args' v' hv' hsub hle s'
    refine ⟨⟨s'.at' (upd_same _ _ _), hle⟩, fun k hk hkr => ⟨s'.at' ?_, by simp⟩⟩
    rw [upd_other _ _ hkr, drained, if_pos (hsub k hk hkr), hv' k hkr, hvk k hk]
    simp
  rw [hxs] at hmx hcap htot ⊢
  rcases reusable_eq s (total := xs.length) (args := args) (b := 0) hvk with e | ⟨pre, r, post, e1, e2, e3⟩
  · -- a new container
    obtain ⟨h1, t, en, wt, mt, st, fr, -⟩ := L.mk_ok (h := h) (f := al 0) hf (by rw [hal.1]; simp)
    have hfree : ∀ k, k ≠ res → (v k).isSome → ∀ b, I.own (w k) b → ¬ (fun _ => False : Nat → Prop) b := fun _ _ _ _ _ hb => hb
    have s1 := s.step (r := res) (o' := t) (cap := mn) (c := fun _ => none) (n := 0) ⟨wt, mt, st⟩ fr hfree
    have hres' : ∃ h2 t2 cap, (if I.reservable = true then I.reserve h1 t xs.length (al 1) else .ok (h1, t)) = .ok (h2, t2) ∧
        xs.length ≤ cap ∧ Views L h2 (upd w res t2) (upd v res (some (cap, cells [], 0))) := by
      cases hr : I.reservable
      · refine ⟨h1, t, mn, by simp, hcap hr, ?_⟩
        rw [cells_nil]; exact s1
      · rw [if_pos rfl, hal.2]
        by_cases hfit : xs.length ≤ mn
        · refine ⟨h1, t, mn, L.reserve_none wt (by rw [mt]; exact hfit), hfit, ?_⟩
          rw [cells_nil]; exact s1
        · obtain ⟨h2, t2, er, wt2, mt2, st2, fr2⟩ := L.reserve_ok (n := xs.length) (xs := []) hr (fr.fresh hf) wt (by rw [mt]; simp)
            (by rw [st]; rfl) (by simp) (by rw [mt]; show mn < xs.length; omega) hmx
          refine ⟨h2, t2, xs.length, er, Nat.le_refl _, ?_⟩
          have := s.step (r := res) (o' := t2) (cap := xs.length) (c := cells []) (n := 0) ⟨wt2, by rw [mt2]; rfl, st2⟩ (fr.trans fr2) hfree
          exact this
    obtain ⟨h2, t2, cap, er, hle, s2⟩ := hres'
    have ha : ArgsAre (upd v res (some (cap, cells [], 0))) res cont capf args := by
      refine ⟨hq, hnd, fun k hk => ?_⟩
      have hne : k ≠ res := fun hc => hres (hc ▸ hk)
      exact ⟨hne, by rw [upd_other _ _ hne, hvk k hk], (hrep k hk).2⟩
    obtain ⟨h3, w3, e3, s3⟩ := appendArgs_eq (args := args) (xs := []) s2 (upd_same _ _ _) ha (by rw [hxs]; simpa using hle)
    rw [hxs, List.nil_append] at s3
    obtain ⟨g1, g2⟩ := finish (v' := upd v res (some (cap, cells [], 0))) (fun k hk => upd_other _ _ hk) (fun k hk _ => hk) hle s3
    refine ⟨h3, w3, res, cap, ?_, g1, .inl rfl, g2⟩
    simp only [Impl.concatenate, htot, e, en]
    rw [if_neg (by omega)]
    simp only [er, e3]
  · -- the storage of the argument `r`
    have hr : r ∈ owns args := by rw [e1, owns_append]; simp [owns]
    have hlen : xs.length = (pre.flatMap (Arg.elems cont)).length + ((cont r).length + (post.flatMap (Arg.elems cont)).length) := by
      rw [← hxs, e1]; simp [Arg.elems]
    have hnd' : (owns (pre ++ post)).Nodup ∧ r ∉ owns (pre ++ post) := by
      have : (owns pre ++ r :: owns post).Nodup := by have := hnd; rw [e1, owns_append] at this; exact this
      rw [owns_append]
      have hp : (owns pre ++ r :: owns post).Perm (r :: (owns pre ++ owns post)) := List.perm_middle
      have := hp.nodup_iff.1 this
      exact ⟨(List.nodup_cons.1 this).2, (List.nodup_cons.1 this).1⟩
    have hsub : ∀ k ∈ owns (pre ++ post), k ∈ owns args := fun k hk => by
      rw [owns_append] at hk
      rw [e1, owns_append]
      show k ∈ owns pre ++ r :: owns post
      rcases List.mem_append.1 hk with hk | hk <;> simp [hk]
    have hsup : ∀ k ∈ owns args, k ≠ r → k ∈ owns (pre ++ post) := fun k hk hkr => by
      rw [e1, owns_append] at hk
      have hk : k ∈ owns pre ++ r :: owns post := hk
      rw [owns_append]
      simpa [hkr] using hk
    obtain ⟨before, hbefore⟩ : ∃ b, (pre.flatMap (Arg.elems cont)).length = b := ⟨_, rfl⟩
    rw [hbefore] at hlen e3
    have hprep : ∃ h1 o1, (if 0 + before = 0 then some (h, w r) else I.moveExisting h (w r) (0 + before)) = some (h1, o1) ∧
        Views L h1 (upd w r o1) (upd v r (some (capf r, gap [] (cont r) before, (cont r).length + before))) := by
      by_cases hb : before = 0
      · subst hb
        refine ⟨h, w r, by simp, ?_⟩
        rw [show w = upd w r (w r) from by funext k; by_cases hk : k = r <;> simp [upd, hk]] at s
        refine s.mono ?_
        funext k
        by_cases hk : k = r
        · subst hk; rw [upd_same, hvk k hr]; rfl
        · rw [upd_other _ _ hk]
      · rw [Nat.zero_add, if_neg hb]
        obtain ⟨h1, o1, em, vm, frm⟩ := moveExisting_eq (hrep r hr).view hb (by omega)
        exact ⟨h1, o1, em, s.step (r := r) vm frm (fun k hk hs b hb' hb'' => s.apart hk hs (by rw [hvk r hr]; rfl) b hb' hb'')⟩
    obtain ⟨h1, o1, em, s1⟩ := hprep
    have ha : ArgsAre (upd v r (some (capf r, gap [] (cont r) before, (cont r).length + before))) r cont capf (pre ++ post) := by
      refine ⟨fun a ha => hq a ?_, hnd'.1, fun k hk => ?_⟩
      · rw [e1]
        rcases List.mem_append.1 ha with ha | ha <;> simp [ha]
      · have hne : k ≠ r := fun hc => hnd'.2 (hc ▸ hk)
        exact ⟨hne, by rw [upd_other _ _ hne, hvk k (hsub k hk)], (hrep k (hsub k hk)).2⟩
    obtain ⟨h2, w2, n, ep, hn, s2⟩ := prependAppend_eq (pre := pre) (post := post) (P := []) (X := cont r) (before := before) s1 (upd_same _ _ _) ha
      (by rw [hbefore]; simp) (by omega)
    have hflat : [] ++ pre.flatMap (Arg.elems cont) ++ cont r ++ post.flatMap (Arg.elems cont) = xs := by
      rw [← hxs, e1]; simp [Arg.elems]
    rw [hflat] at s2 hn
    subst hn
    obtain ⟨g1, g2⟩ := finish (v' := upd v r (some (capf r, gap [] (cont r) before, (cont r).length + before))) (fun k hk => upd_other _ _ hk)
      hsup e2 s2
    refine ⟨h2, w2, r, capf r, ?_, g1, .inr hr, g2⟩
    have ep : I.prependAppend r args 0 h1 (upd w r o1) = .ok (h2, w2) := by rw [e1]; exact ep
    simp only [Impl.concatenate, htot, e3, em, ep, Out.bind]

/-- Two vectors in memory: object 0 with capacity 2 and elements 7 8, object 1 with capacity 8 and elements 4 5 6. -/
def catHeap : Heap Nat := ⟨upd (upd (fun _ => none) 0 (some ⟨2, cells [7, 8]⟩)) 1 (some ⟨8, cells [4, 5, 6]⟩), 2⟩
/-- The headers of these two vectors. -/
def catObjs : Nat → Hdr Nat := fun k => if k = 0 then { ptr := some 0, cap := 2, size := 2 } else { ptr := some 1, cap := 8, size := 3 }

/-- `concatenate(range{1}, std::move(v0), std::move(v1), range{2, 3})`: the storage of `v1` is reused, `v0` is left empty. -/
example :
    (match (vec Nat 0 100).concatenate catHeap catObjs 5 (fun _ => false)
        [.items [⟨1, false⟩], .own 0, .own 1, .items [⟨2, false⟩, ⟨3, false⟩]] with
      | .ok (h, w, r) => some (r, readFrom (Vec.mem h (w r)).1 (Vec.mem h (w r)).2 0 (w r).size, (w 0).size)
      | _ => none) = some (1, some [1, 7, 8, 4, 5, 6, 2, 3], 0) := by decide +kernel

/-- The hypotheses of `C49_concatenate_partial` for these arguments. -/
example : (∀ k ∈ owns [.items [⟨1, false⟩], .own 0, .own 1, .items [⟨2, false⟩, ⟨3, false⟩]],
      (Vec.lawful 0 100 (by decide)).Rep catHeap (catObjs k) (if k = 0 then [7, 8] else [4, 5, 6]) (if k = 0 then 2 else 8)) ∧
    (vec Nat 0 100).Apart (catObjs 0) (catObjs 1) ∧ Fresh catHeap ∧ Arg.quiet (.items [(⟨1, false⟩ : Item Nat)]) := by
  refine ⟨?_, ?_, ?_, ?_⟩
  · intro k hk
    have : k = 0 ∨ k = 1 := by simpa [owns] using hk
    rcases this with rfl | rfl
    · exact rep_of ⟨.inr ⟨0, ⟨2, cells [7, 8]⟩, rfl, rfl, rfl, by decide, by decide⟩, rfl, rfl⟩ rfl rfl (by decide)
    · exact rep_of ⟨.inr ⟨1, ⟨8, cells [4, 5, 6]⟩, rfl, rfl, rfl, by decide, by decide⟩, rfl, rfl⟩ rfl rfl (by decide)
  · intro b h1 h2
    have h1 : some 0 = some b := h1
    have h2 : some 1 = some b := h2
    rw [← h1] at h2; cases h2
  · intro b hb
    have : 2 ≤ b := hb
    simp only [catHeap]
    rw [upd_other _ _ (by omega), upd_other _ _ (by omega)]
  · intro it hit
    simp at hit
    rw [hit]

/-- C49 fails when copying an element in front of the reused storage throws: the size of the argument already counts the elements that
are to come, so its destructor destroys slots that hold no element. -/
theorem C49_concatenate_exception_violated :
    (match (vec Nat 0 100).concatenate catHeap catObjs 5 (fun _ => false) [.items [⟨1, true⟩], .own 1] with
      | .exn (h, w, r) => some (r, (w 1).size, ((Vec.mem h (w 1)).2 0).isSome, ((vec Nat 0 100).dtor h (w 1)).isSome)
      | _ => none) = some (1, 4, false, false) := by decide +kernel

end Verif.Containers
