import Verif.Containers.GenericProps
import Verif.Containers.Vector
import Verif.Containers.StaticVector

/-!
# Elements of the container as the source of `insert`, `append` and `resize` (property C60)

`insert(v, it, v[k])`, `append(v, v)`, `resize(v, n, v[k])`: the new elements are constructed from references into the container that
changes. In `Generic.lean` the source of these functions is a list of values that are known beforehand; here each new element is read from
the container at the moment it is constructed (`PSrc`).
-/

namespace Verif.Containers

open Verif Impl Lawful

variable {V O : Type}

/-- The loop of `uninitialized_copy` (algorithms/copy_or_relocate_from.cpp 27-51, algorithms/uninitialized.cpp 40-52) with a source that is
read when its element is needed: `rd m c` is what constructing from `c` does when the slots of the destination are `m`. -/
def copyLoopRefs (cap : Nat) (rd : Cells V → PSrc V → Option (V × Bool)) (m : Cells V) (out : Nat) : List (PSrc V) → Out (Cells V × Nat)
  | [] => .ok (m, out)
  | c :: cs =>
    match rd m c with
    | none => .ub
    | some (_, true) => .exn (m, out)
    | some (v, false) =>
      match construct cap m out v with
      | none => .ub
      | some m' => copyLoopRefs cap rd m' (out + 1) cs

/-- `uninitialized_copy` (algorithms/uninitialized.cpp 54-63). -/
def uninitCopyRefs (cap : Nat) (rd : Cells V → PSrc V → Option (V × Bool)) (m : Cells V) (out : Nat) (src : List (PSrc V)) : Out (Cells V) :=
  match copyLoopRefs cap rd m out src with
  | .ok (m', _) => .ok m'
  | .exn (m', out') =>
    match destroyRange cap m' out (out' - out) with
    | some m'' => .exn m''
    | none => .ub
  | .ub => .ub

namespace Impl

/-- `uninitialized_copy_no_overlap(source, data(t) + pos)`; `look` is the storage that the references in the source refer to, given the heap
and the object `t` at the moment of reading. -/
def copyAtRefs (I : Impl V O) (h : Heap V) (t : O) (pos : Nat) (src : List (PSrc V)) (look : Heap V × O → Nat × Cells V) : Out (Heap V × O) :=
  match uninitCopyRefs (I.mem h t).1 (fun m c => c.eval (look (I.put h t m))) (I.mem h t).2 pos src with
  | .ok c => .ok (I.put h t c)
  | .exn c => .exn (I.put h t c)
  | .ub => .ub

/-- source/containers/append.cpp 38-73 `append_impl`, as `Impl.append`. -/
def appendRefs (I : Impl V O) (h : Heap V) (o : O) (src : List (PSrc V)) (al : Nat → Bool) : Out (Heap V × O) :=
  match I.capacity o with
  | none => .ub
  | some cap =>
    if I.reservable then
      if I.size o + src.length ≤ cap then
        match I.copyAtRefs h o (I.size o) src (fun r => I.mem r.1 r.2) with
        | .ub => .ub
        | .exn r => .exn r
        | .ok r => I.finish (some r) (I.size o + src.length)
      else
        match I.new h (al 0) with
        | .exn => .exn (h, o)
        | .ub => .ub
        | .ok (h1, t) =>
          match I.expForceReserve h1 t cap (I.size o + src.length) (al 1) with
          | .ub => .ub
          | .exn (h2, t2) => I.failTemp h2 t2 o
          | .ok (h2, t2) =>
            match I.copyAtRefs h2 t2 (I.size o) src (fun r => I.mem r.1 o) with
            | .ub => .ub
            | .exn (h3, t3) => I.failTemp h3 t3 o
            | .ok (h3, t3) =>
              match I.relocInto h3 o t3 0 0 (I.size o) with
              | none => .ub
              | some (h4, o4, t4) => I.finish (I.takeOver h4 o4 t4) (I.size o + src.length)
    else if cap < src.length then .exn (h, o)
    else
      match I.copyAtRefs h o (I.size o) src (fun r => I.mem r.1 r.2) with
      | .ub => .ub
      | .exn r => .exn r
      | .ok r => I.finish (some r) (I.size o + src.length)

/-- source/containers/insert.cpp 41-59 `insert_without_reallocation`. -/
def insertInPlaceRefs (I : Impl V O) (h : Heap V) (o : O) (k : Nat) (src : List (PSrc V)) : Out (Heap V × O) :=
  match I.modify h o fun cap m =>
      relocBack cap m (I.size o) (I.size o + src.length) (I.size o - k) with
  | none => .ub
  | some (h1, o1) =>
    match I.copyAtRefs h1 o1 k src (fun r => I.mem r.1 r.2) with
    | .ub => .ub
    | .exn (h2, o2) =>
      match I.modify h2 o2 fun cap m => relocFwd cap m (k + src.length) k (I.size o - k) with
      | none => .ub
      | some r => .exn r
    | .ok r => I.finish (some r) (I.size o + src.length)

/-- source/containers/insert.cpp 61-89 `insert_with_reallocation`. -/
def insertReallocRefs (I : Impl V O) (h : Heap V) (o : O) (cap k : Nat) (src : List (PSrc V)) (al : Nat → Bool) : Out (Heap V × O) :=
  match I.new h (al 0) with
  | .exn => .exn (h, o)
  | .ub => .ub
  | .ok (h1, t) =>
    match I.expForceReserve h1 t cap (I.size o + src.length) (al 1) with
    | .ub => .ub
    | .exn (h2, t2) => I.failTemp h2 t2 o
    | .ok (h2, t2) =>
      match I.copyAtRefs h2 t2 k src (fun r => I.mem r.1 o) with
      | .ub => .ub
      | .exn (h3, t3) => I.failTemp h3 t3 o
      | .ok (h3, t3) =>
        match I.relocInto h3 o t3 0 0 k with
        | none => .ub
        | some (h4, o4, t4) =>
          match I.relocInto h4 o4 t4 k (k + src.length) (I.size o - k) with
          | none => .ub
          | some (h5, o5, t5) =>
            match I.setSize t5 (I.size o + src.length) with
            | none => .ub
            | some t6 =>
              match I.takeOver h5 o5 t6 with
              | none => .ub
              | some r => .ok r

/-- source/containers/insert.cpp 109-135 `insert` of a range before position `k`; lines 137-177 make one element a range with
`generate_n(1_bi, ...)`. -/
def insertRefs (I : Impl V O) (h : Heap V) (o : O) (k : Nat) (src : List (PSrc V)) (al : Nat → Bool) : Out (Heap V × O) :=
  if I.size o < k then .ub
  else
    match I.capacity o with
    | none => .ub
    | some cap =>
      if I.size o + src.length ≤ cap then I.insertInPlaceRefs h o k src
      else if I.reservable then I.insertReallocRefs h o cap k src al
      else .exn (h, o)

/-- source/containers/resize.cpp 23-39 with the value `v[j]`: every new element is a copy of it; the `i`-th copy throws if `thr i`. -/
def resizeFrom (I : Impl V O) (h : Heap V) (o : O) (n j : Nat) (thr : Nat → Bool) (al : Nat → Bool) : Out (Heap V × O) :=
  if n ≤ I.size o then I.eraseToEnd h o n
  else I.appendRefs h o ((List.range (n - I.size o)).map fun i => .self j (thr i)) al

/-- `insert(position, count, value)` of the vectors in the style of the standard library (std/vector.cpp 251-260, std/inplace_vector.cpp
317-326), when `value` is the element with index `j`: `object_is_in_storage` says so, and the copies are made of a copy. `first`: making that
copy throws. -/
def stdInsertCount (I : Impl V O) (h : Heap V) (o : O) (k n j : Nat) (first : Bool) (thr : Nat → Bool) (al : Nat → Bool) : Out (Heap V × O) :=
  match readCell (I.mem h o).1 (I.mem h o).2 j with
  | none => .ub
  | some v => if first then .exn (h, o) else I.insert h o k ((List.range n).map fun i => ⟨v, thr i⟩) al

/-- `insert(position, value)` (std/vector.cpp 244-250, std/inplace_vector.cpp 307-313), also `emplace(position, value)` (std/vector.cpp
269-276), when `value` is the element with index `j`. The element is moved from the copy, which does not throw. -/
def stdInsert (I : Impl V O) (h : Heap V) (o : O) (k j : Nat) (first : Bool) (al : Nat → Bool) : Out (Heap V × O) :=
  I.stdInsertCount h o k 1 j first (fun _ => false) al

end Impl

/-! ## Specification: a reference is worth what it referred to before the call -/

/-- What constructing from `c` yields in a container with the elements `xs`; `none` if there is no such element. -/
def PSrc.now (xs : List V) : PSrc V → Option (Item V)
  | .lit v t => some ⟨v, t⟩
  | .self k t => xs[k]?.map fun v => ⟨v, t⟩

/-- `c` is not a reference to an element with index `k` or later. -/
def PSrc.Before (k : Nat) : PSrc V → Prop
  | .lit _ _ => True
  | .self j _ => j < k

/-! ## Proofs -/

theorem copyLoopRefs_eq {cap : Nat} {rd : Cells V → PSrc V → Option (V × Bool)} : ∀ {src : List (PSrc V)} {items : List (Item V)} {m : Cells V}
    {out : Nat}, (∀ m' : Cells V, (∀ j, j < out ∨ out + src.length ≤ j → m' j = m j) →
      src.map (rd m') = items.map fun it => some (it.val, it.throws)) →
    copyLoopRefs cap rd m out src = copyLoop cap m out items
  | [], [], m, out, _ => rfl
  | [], it :: its, m, out, h => by have := h m (fun _ _ => rfl); simp at this
  | c :: cs, [], m, out, h => by have := h m (fun _ _ => rfl); simp at this
  | c :: cs, it :: its, m, out, h => by
    have h0 := h m (fun _ _ => rfl)
    simp only [List.map_cons, List.cons.injEq] at h0
    simp only [copyLoopRefs, copyLoop, h0.1]
    cases ht : it.throws with
    | true => rfl
    | false =>
      simp only [Bool.false_eq_true, if_false]
      cases hc : construct cap m out it.val with
      | none => rfl
      | some m1 =>
        refine copyLoopRefs_eq fun m' hm' => ?_
        have hm1 : ∀ j, j ≠ out → m1 j = m j := by
          intro j hj
          unfold construct at hc
          split at hc
          · cases hc; exact upd_other _ _ hj
          · cases hc
        have := h m' fun j hj => by
          rw [List.length_cons] at hj
          rw [hm' j (by omega), hm1 j (by omega)]
        simp only [List.map_cons, List.cons.injEq] at this
        exact this.2

theorem uninitCopyRefs_eq {cap : Nat} {rd : Cells V → PSrc V → Option (V × Bool)} {src : List (PSrc V)} {items : List (Item V)} {m : Cells V}
    {out : Nat} (h : ∀ m' : Cells V, (∀ j, j < out ∨ out + src.length ≤ j → m' j = m j) →
      src.map (rd m') = items.map fun it => some (it.val, it.throws)) :
    uninitCopyRefs cap rd m out src = uninitCopy cap m out items := by
  simp only [uninitCopyRefs, uninitCopy, copyLoopRefs_eq h]
  rcases copyLoop cap m out items with ⟨m', k⟩ | ⟨m', k⟩ | _ <;> rfl

variable {I : Impl V O} {mn : Nat} {mkA : Bool} {L : Lawful I mn mkA}

theorem copyAtRefs_eq {h : Heap V} {t : O} {cap n pos : Nat} {c : Cells V} (v : L.View h t cap c n) {src : List (PSrc V)} {items : List (Item V)}
    {look : Heap V × O → Nat × Cells V}
    (hl : ∀ m' : Cells V, (∀ j, j < pos ∨ pos + src.length ≤ j → m' j = c j) →
      src.map (fun s => s.eval (look (I.put h t m'))) = items.map fun it => some (it.val, it.throws)) :
    I.copyAtRefs h t pos src look = I.copyAt h t pos items := by
  simp only [Impl.copyAtRefs, Impl.copyAt, v.2.1]
  rw [uninitCopyRefs_eq hl]
  cases uninitCopy cap c pos items <;> rfl

/-- Reading references while slots that do not belong to their elements change. -/
theorem eval_now {xs : List V} {cap : Nat} (hc : xs.length ≤ cap) : ∀ {src : List (PSrc V)} {items : List (Item V)},
    src.map (PSrc.now xs) = items.map some → ∀ {m : Cells V},
    (∀ j t, PSrc.self j t ∈ src → j < xs.length → m j = xs[j]?) →
    src.map (fun s => s.eval (cap, m)) = items.map fun it => some (it.val, it.throws)
  | [], [], _, _, _ => rfl
  | [], _ :: _, h, _, _ => by simp at h
  | _ :: _, [], h, _, _ => by simp at h
  | c :: cs, it :: its, h, m, hm => by
    simp only [List.map_cons, List.cons.injEq] at h ⊢
    refine ⟨?_, eval_now hc h.2 fun j t hj => hm j t (List.mem_cons_of_mem _ hj)⟩
    cases c with
    | lit v t =>
      have := h.1
      simp only [PSrc.now, Option.some.injEq] at this
      rw [← this]; rfl
    | self k t =>
      have h1 := h.1
      simp only [PSrc.now] at h1
      cases hx : xs[k]? with
      | none => rw [hx] at h1; simp at h1
      | some v =>
        rw [hx] at h1
        simp only [Option.map_some, Option.some.injEq] at h1
        have hk : k < xs.length := by
          apply Classical.byContradiction; intro q
          rw [List.getElem?_eq_none (by omega)] at hx; cases hx
        have := hm k t (by simp) hk
        simp only [PSrc.eval, readCell, if_pos (show k < cap by omega), this, hx, Option.map_some]
        rw [← h1]

theorem now_length {xs : List V} {src : List (PSrc V)} {items : List (Item V)} (h : src.map (PSrc.now xs) = items.map some) :
    items.length = src.length := by
  have := congrArg List.length h
  simpa using this.symm

theorem appendRefs_eq {h : Heap V} {o : O} {xs : List V} {cap : Nat} (r : L.Rep h o xs cap) (hf : Fresh h) {src : List (PSrc V)}
    {items : List (Item V)} (hsrc : src.map (PSrc.now xs) = items.map some) (al : Nat → Bool) :
    I.appendRefs h o src al = I.append h o items al := by
  have hs := r.1.2.2
  have hlen := now_length hsrc
  have hr2 := r.2
  have inPlace : I.copyAtRefs h o (I.size o) src (fun r => I.mem r.1 r.2) = I.copyAt h o (I.size o) items := by
    refine copyAtRefs_eq r.view fun m' hm' => ?_
    rw [(r.view.put m').1.2.1]
    exact eval_now r.2 hsrc fun j _ _ hj => by rw [hm' j (by omega)]; rfl
  simp only [Impl.appendRefs, Impl.append, r.view.cap, hlen, inPlace]
  split
  · rename_i hr
    split
    · rfl
    · rename_i hroom
      cases ha : (mkA && al 0)
      rotate_left
      · have ha' : mkA = true ∧ al 0 = true := by simpa using ha
        rw [ha'.2, L.mk_exn ha'.1]
      · obtain ⟨h1, t, e2, w, f1, _⟩ := mkTemp r.view hf ha
        rw [e2]
        simp only
        obtain ⟨g1, g2⟩ := w.expForce (f1.fresh hf) hr (m := I.size o + src.length) (by omega) (al 1)
        cases hx : (decide (I.mx < max (I.size o + src.length) (2 * cap)) || al 1)
        rotate_left
        · rw [g1 hx]
        · obtain ⟨h2, t2, e3, w2, f2⟩ := g2 hx
          rw [e3]
          simp only
          rw [copyAtRefs_eq (look := fun r => I.mem r.1 o) w2.vt (items := items) (by
            intro m' hm'
            have p := w2.vt.put m'
            have q : L.View (I.put h2 t2 m').1 o cap (cells xs) xs.length := w2.vo.keep p.2.2 fun b h1 h2 => w2.apart b h2 h1
            rw [q.2.1]
            exact eval_now r.2 hsrc fun j _ _ hj => rfl)]
          rfl
  · rfl

theorem insertRefs_eq {h : Heap V} {o : O} {xs : List V} {cap k : Nat} (r : L.Rep h o xs cap) (hf : Fresh h) {src : List (PSrc V)}
    {items : List (Item V)} (hsrc : src.map (PSrc.now xs) = items.map some) (al : Nat → Bool) (hk : k ≤ xs.length)
    (hne : src = [] → k = xs.length) (hb : xs.length + src.length ≤ cap → ∀ c ∈ src, c.Before k) :
    I.insertRefs h o k src al = I.insert h o k items al := by
  have hs := r.1.2.2
  have hlen := now_length hsrc
  have hr2 := r.2
  simp only [Impl.insertRefs, Impl.insert, hs, r.view.cap, hlen]
  split
  · rfl
  · split
    · rename_i hroom
      simp only [Impl.insertInPlaceRefs, Impl.insertInPlace, hs, hlen]
      have hback : relocBack cap (cells xs) xs.length (xs.length + src.length) (xs.length - k) =
          some (shifted (cells xs) k (k + src.length) (xs.length - k)) := by
        by_cases h0 : src = []
        · have := hne h0; subst this
          simp only [Nat.sub_self, relocBack, Option.some.injEq]
          funext j; simp only [shifted]; rw [if_neg (by omega), if_neg (by omega)]
        · have hpos : 0 < src.length := List.length_pos_iff.2 h0
          have := relocBack_eq cap (xs.length - k) (cells xs) k (k + src.length) (by omega) (by omega)
            (fun j _ g => cells_live (by omega)) (fun j g _ _ => cells_raw (by omega))
          rwa [show k + (xs.length - k) = xs.length by omega,
            show k + src.length + (xs.length - k) = xs.length + src.length by omega] at this
      obtain ⟨h1, o1, e2, v1, eo1, f1⟩ := r.view.modify (f := fun cap m =>
        relocBack cap m xs.length (xs.length + src.length) (xs.length - k)) hback
      rw [e2]
      simp only
      rw [copyAtRefs_eq (look := fun r => I.mem r.1 r.2) v1 (items := items) (by
        intro m' hm'
        rw [(v1.put m').1.2.1]
        refine eval_now r.2 hsrc fun j t hj hjl => ?_
        have hjk : j < k := hb hroom _ hj
        rw [hm' j (by omega)]
        simp only [shifted]
        rw [if_neg (by omega), if_neg (by omega)]
        rfl)]
      rfl
    · rename_i hroom
      split
      · rename_i hr
        simp only [Impl.insertReallocRefs, Impl.insertRealloc, hs, hlen]
        cases ha : (mkA && al 0)
        rotate_left
        · have ha' : mkA = true ∧ al 0 = true := by simpa using ha
          rw [ha'.2, L.mk_exn ha'.1]
        · obtain ⟨h1, t, e2, w, f1, _⟩ := mkTemp r.view hf ha
          rw [e2]
          simp only
          obtain ⟨g1, g2⟩ := w.expForce (f1.fresh hf) hr (m := xs.length + src.length) (by omega) (al 1)
          cases hx : (decide (I.mx < max (xs.length + src.length) (2 * cap)) || al 1)
          rotate_left
          · rw [g1 hx]
          · obtain ⟨h2, t2, e3, w2, f2⟩ := g2 hx
            rw [e3]
            simp only
            rw [copyAtRefs_eq (look := fun r => I.mem r.1 o) w2.vt (items := items) (by
              intro m' hm'
              have p := w2.vt.put m'
              have q : L.View (I.put h2 t2 m').1 o cap (cells xs) xs.length := w2.vo.keep p.2.2 fun b h1 h2 => w2.apart b h2 h1
              rw [q.2.1]
              exact eval_now r.2 hsrc fun j _ _ hj => rfl)]
            rfl
      · rfl

/-! ## C60 -/

/-- The operation ends as specified, the object then holds exactly the specified elements, and nothing but its own storage changed. -/
def Ends (L : Lawful I mn mkA) (h : Heap V) (o : O) (r : Out (Heap V × O)) (s : SV V × Bool) : Prop :=
  ∃ h' o', r = Out.of s.2 (h', o') ∧ L.Rep h' o' s.1.1 s.1.2 ∧ Frame (I.own o) h (I.own o') h'

/-- C60. `append` of references into the container itself, for instance of the container itself: the new elements are copies of what the
references referred to, whether or not the container reallocates. -/
theorem C60_append {h : Heap V} {o : O} {xs : List V} {cap : Nat} (r : L.Rep h o xs cap) (hf : Fresh h) (src : List (PSrc V))
    (items : List (Item V)) (hsrc : src.map (PSrc.now xs) = items.map some) (al : Nat → Bool) (hp : appendPre L.cfg (xs, cap) src.length) :
    Ends L h o (I.appendRefs h o src al)
      (specInsert L.cfg (xs, cap) xs.length (items.map (·.val)) (!items.any (·.throws)) al) := by
  rw [appendRefs_eq r hf hsrc]
  obtain ⟨h', o', e, r', f, _⟩ := good_append r hf items al (by rw [now_length hsrc]; exact hp)
  exact ⟨h', o', e, r', f⟩

/-- C60, `append(v, v)`: if nothing throws the container holds its elements twice. -/
theorem C60_append_itself {h : Heap V} {o : O} {xs : List V} {cap : Nat} (r : L.Rep h o xs cap) (hf : Fresh h) (al : Nat → Bool)
    (hp : appendPre L.cfg (xs, cap) xs.length) :
    Ends L h o (I.appendRefs h o ((List.range xs.length).map fun k => .self k false) al)
      (specInsert L.cfg (xs, cap) xs.length xs true al) := by
  have e1 : (xs.map fun v => (⟨v, false⟩ : Item V)).map (·.val) = xs := by
    rw [List.map_map]; exact List.map_id _
  have e2 : (!(xs.map fun v => (⟨v, false⟩ : Item V)).any (·.throws)) = true := by simp
  have := C60_append r hf ((List.range xs.length).map fun k => .self k false) (xs.map fun v => ⟨v, false⟩) (by
    apply List.ext_getElem?
    intro k
    by_cases hk : k < xs.length
    · simp [hk, PSrc.now]
    · rw [List.getElem?_eq_none (by simpa using hk), List.getElem?_eq_none (by simpa using hk)]) al (by simpa using hp)
  rwa [e1, e2] at this

/-- C60, `resize(v, n, v[j])`. -/
theorem C60_resize {h : Heap V} {o : O} {xs : List V} {cap : Nat} (r : L.Rep h o xs cap) (hf : Fresh h) (n j : Nat) (hj : j < xs.length)
    (thr al : Nat → Bool) (hp : appendPre L.cfg (xs, cap) (n - xs.length)) :
    Ends L h o (I.resizeFrom h o n j thr al)
      (if n ≤ xs.length then ((xs.take n, cap), false)
        else specInsert L.cfg (xs, cap) xs.length (List.replicate (n - xs.length) xs[j])
          (!(List.range (n - xs.length)).any thr) al) := by
  simp only [Impl.resizeFrom, r.1.2.2]
  split
  · rename_i hn
    obtain ⟨h', o', e, r', f, _⟩ := good_eraseToEnd r hn
    exact ⟨h', o', e, r', f⟩
  · have := C60_append r hf ((List.range (n - xs.length)).map fun i => .self j (thr i))
      ((List.range (n - xs.length)).map fun i => ⟨xs[j], thr i⟩) (by simp [PSrc.now, hj]) al (by simpa using hp)
    have e1 : ((List.range (n - xs.length)).map fun i => (⟨xs[j], thr i⟩ : Item V)).map (·.val) = List.replicate (n - xs.length) xs[j] := by
      apply List.ext_getElem <;> simp
    have e2 : ((List.range (n - xs.length)).map fun i => (⟨xs[j], thr i⟩ : Item V)).any (·.throws) = (List.range (n - xs.length)).any thr := by
      rw [List.any_map]; rfl
    rwa [e1, e2] at this

/-- C60. `insert` of references into the container itself: the new elements are copies of what the references referred to, if the insertion
needs a reallocation or all the references are to elements before the position.

Missing: references to elements at or after the position when there is room (`C60_insert_violated`). -/
theorem C60_insert_partial {h : Heap V} {o : O} {xs : List V} {cap k : Nat} (r : L.Rep h o xs cap) (hf : Fresh h) (src : List (PSrc V))
    (items : List (Item V)) (hsrc : src.map (PSrc.now xs) = items.map some) (al : Nat → Bool) (hk : k ≤ xs.length)
    (hne : src = [] → k = xs.length) (hb : xs.length + src.length ≤ cap → ∀ c ∈ src, c.Before k) :
    Ends L h o (I.insertRefs h o k src al)
      (specInsert L.cfg (xs, cap) k (items.map (·.val)) (!items.any (·.throws)) al) := by
  rw [insertRefs_eq r hf hsrc al hk hne hb]
  have hlen := now_length hsrc
  obtain ⟨h', o', e, r', f, _⟩ := good_insert r hf items al hk (fun e => hne (by
    apply List.eq_nil_of_length_eq_zero; rw [← hlen, e]; rfl))
  exact ⟨h', o', e, r', f⟩

/-- C60 is violated whenever there is room and the element is not before the position: with `insert(v, v.begin() + k, v[k])` an element is read
that has been moved away, with `insert(v, v.begin() + k, v[j])` and `k < j` the new element is a copy of the element before `v[j]`. -/
theorem C60_insert_room_violated {h : Heap V} {o : O} {xs : List V} {cap k j : Nat} (r : L.Rep h o xs cap) (hf : Fresh h)
    (hkj : k ≤ j) (hj : j < xs.length) (hroom : xs.length < cap) (al : Nat → Bool) :
    (j = k → I.insertRefs h o k [.self j false] al = .ub) ∧
    (k < j → Ends L h o (I.insertRefs h o k [.self j false] al) ((xs.take k ++ xs[j - 1] :: xs.drop k, cap), false)) := by
  have hs := r.1.2.2
  have hr2 := r.2
  have hback : relocBack cap (cells xs) xs.length (xs.length + 1) (xs.length - k) = some (shifted (cells xs) k (k + 1) (xs.length - k)) := by
    have := relocBack_eq cap (xs.length - k) (cells xs) k (k + 1) (by omega) (by omega)
      (fun j _ g => cells_live (by omega)) (fun j g _ _ => cells_raw (by omega))
    rwa [show k + (xs.length - k) = xs.length by omega, show k + 1 + (xs.length - k) = xs.length + 1 by omega] at this
  obtain ⟨h1, o1, e2, v1, eo1, f1⟩ := r.view.modify (f := fun cap m => relocBack cap m xs.length (xs.length + 1) (xs.length - k)) hback
  constructor
  · intro he
    subst he
    simp only [Impl.insertRefs, hs, r.view.cap, if_neg (show ¬ xs.length < j by omega), Impl.insertInPlaceRefs, List.length_singleton,
      if_pos (show xs.length + 1 ≤ cap by omega), e2, Impl.copyAtRefs, uninitCopyRefs, copyLoopRefs, v1.2.1, (v1.put _).1.2.1, PSrc.eval, readCell,
      if_pos (show j < cap by omega)]
    have : shifted (cells xs) j (j + 1) (xs.length - j) j = none := by
      simp only [shifted]; rw [if_neg (by omega), if_pos (by omega)]
    rw [this]
    rfl
  · intro hlt
    have key : I.insertRefs h o k [.self j false] al = I.insert h o k [⟨xs[j - 1], false⟩] al := by
      simp only [Impl.insertRefs, Impl.insert, hs, r.view.cap, if_neg (show ¬ xs.length < k by omega), Impl.insertInPlaceRefs,
        Impl.insertInPlace, List.length_singleton, if_pos (show xs.length + 1 ≤ cap by omega), e2]
      rw [copyAtRefs_eq (look := fun r => I.mem r.1 r.2) v1 (items := [⟨xs[j - 1], false⟩]) (by
        intro m' hm'
        rw [(v1.put m').1.2.1]
        simp only [List.map_cons, List.map_nil, PSrc.eval, readCell, if_pos (show j < cap by omega), List.cons.injEq, and_true]
        rw [hm' j (by simp only [List.length_singleton]; omega)]
        have : shifted (cells xs) k (k + 1) (xs.length - k) j = some xs[j - 1] := by
          simp only [shifted]
          rw [if_pos (by omega), show j - (k + 1) + k = j - 1 by omega]
          exact List.getElem?_eq_getElem _
        rw [this]; rfl)]
      rfl
    obtain ⟨h', o', e, r', f, _⟩ := good_insert r hf [⟨xs[j - 1], false⟩] al (show k ≤ xs.length by omega) (by simp)
    simp only [specInsert, List.map_cons, List.map_nil, List.length_singleton, if_pos (show xs.length + 1 ≤ cap by omega)] at e r'
    rw [key]
    exact ⟨h', o', e, by simpa using r', f⟩

/-- C60. The `insert` functions of the vectors in the style of the standard library insert any number of copies of any of their elements
before any position. -/
theorem C60_std_insert {h : Heap V} {o : O} {xs : List V} {cap k : Nat} (r : L.Rep h o xs cap) (hf : Fresh h) (n j : Nat) (hj : j < xs.length)
    (first : Bool) (thr al : Nat → Bool) (hk : k ≤ xs.length) (hn : n = 0 → k = xs.length) :
    Ends L h o (I.stdInsertCount h o k n j first thr al)
      (if first then ((xs, cap), true)
        else specInsert L.cfg (xs, cap) k (List.replicate n xs[j]) (!(List.range n).any thr) al) := by
  have hr2 := r.2
  have hread : readCell (I.mem h o).1 (I.mem h o).2 j = some xs[j] := by
    rw [r.mem]; simp only [readCell, if_pos (show j < cap by omega), cells]; exact List.getElem?_eq_getElem hj
  simp only [Impl.stdInsertCount, hread]
  cases first with
  | true => exact ⟨h, o, rfl, r, Frame.refl _ _⟩
  | false =>
    simp only [Bool.false_eq_true, if_false]
    obtain ⟨h', o', e, r', f, _⟩ := good_insert r hf ((List.range n).map fun i => ⟨xs[j], thr i⟩) al hk (fun e => hn (by simpa using e))
    have e1 : ((List.range n).map fun i => (⟨xs[j], thr i⟩ : Item V)).map (·.val) = List.replicate n xs[j] := by
      apply List.ext_getElem <;> simp
    have e2 : ((List.range n).map fun i => (⟨xs[j], thr i⟩ : Item V)).any (·.throws) = (List.range n).any thr := by
      rw [List.any_map]; rfl
    rw [e1, e2] at e r'
    exact ⟨h', o', e, r', f⟩

/-- One element. -/
theorem C60_std_insert_one {h : Heap V} {o : O} {xs : List V} {cap k : Nat} (r : L.Rep h o xs cap) (hf : Fresh h) (j : Nat) (hj : j < xs.length)
    (hk : k ≤ xs.length) (hroom : xs.length < cap) (al : Nat → Bool) :
    ∃ h' o', I.stdInsert h o k j false al = .ok (h', o') ∧ L.Rep h' o' (xs.take k ++ xs[j] :: xs.drop k) cap := by
  obtain ⟨h', o', e, r', _⟩ := C60_std_insert r hf 1 j hj false (fun _ => false) al hk (by omega)
  simp only [Bool.false_eq_true, if_false, specInsert, List.length_replicate, if_pos (show xs.length + 1 ≤ cap by omega)] at e r'
  exact ⟨h', o', e, by simpa using r'⟩

/-! ### Examples -/

/-- The `static_vector<Nat, 4>` with the elements 1, 2, 3. -/
def alias123 : Stat Nat := ⟨cells [1, 2, 3], 3⟩

/-- The `vector` with the elements 1, 2, 3 and a capacity of `cap`, in block 0. -/
def aliasHeap (cap : Nat) : Heap Nat × Hdr Nat := (⟨upd (fun _ => none) 0 (some ⟨cap, cells [1, 2, 3]⟩), 1⟩, { ptr := some 0, cap := cap, size := 3 })

/-- The elements of a container after an operation. -/
def shown {O : Type} (I : Impl Nat O) (r : Out (Heap Nat × O)) : Option (List (Option Nat)) :=
  match r with
  | .ok (h, o) => some ((List.range (I.size o)).map fun k => readCell (I.mem h o).1 (I.mem h o).2 k)
  | .exn _ => none
  | .ub => none

/-- C60 is violated by `insert(v, position, v[k])` if there is room and `k` is not before the position. The new element is constructed after
the elements from the position on have been moved: `insert(v, v.begin(), v[0])` reads an element that does not exist anymore, and
`insert(v, v.begin() + 1, v[2])` in `{1, 2, 3}` inserts a 2. A `vector` with room is no better than a `static_vector`; one without room
inserts the 3. (insert.cpp 137-160 documents the restriction for `lazy_insert` and `emplace`, line 168 has a TODO for `insert` of a value.) -/
theorem C60_insert_violated :
    (stat Nat 4).insertRefs ⟨fun _ => none, 0⟩ alias123 0 [.self 0 false] (fun _ => false) = .ub ∧
    shown (stat Nat 4) ((stat Nat 4).insertRefs ⟨fun _ => none, 0⟩ alias123 1 [.self 2 false] fun _ => false) =
      some [some 1, some 2, some 2, some 3] ∧
    (vec Nat 0 9).insertRefs (aliasHeap 4).1 (aliasHeap 4).2 0 [.self 0 false] (fun _ => false) = .ub ∧
    shown (vec Nat 0 9) ((vec Nat 0 9).insertRefs (aliasHeap 4).1 (aliasHeap 4).2 1 [.self 2 false] fun _ => false) =
      some [some 1, some 2, some 2, some 3] ∧
    shown (vec Nat 0 9) ((vec Nat 0 9).insertRefs (aliasHeap 3).1 (aliasHeap 3).2 1 [.self 2 false] fun _ => false) =
      some [some 1, some 3, some 2, some 3] :=
  ⟨rfl, by decide +kernel, rfl, by decide +kernel, by decide +kernel⟩

/-- The hypotheses of the theorems above are met by these two containers. -/
theorem alias123_rep : (Stat.lawful 4 : Lawful (stat Nat 4) 4 false).Rep ⟨fun _ => none, 0⟩ alias123 [1, 2, 3] 4 :=
  ⟨⟨trivial, rfl, rfl⟩, by decide⟩

theorem aliasHeap_rep (cap : Nat) (h1 : 3 ≤ cap) (h2 : cap ≤ 9) :
    (Vec.lawful 0 9 (by decide) : Lawful (vec Nat 0 9) 0 _).Rep (aliasHeap cap).1 (aliasHeap cap).2 [1, 2, 3] cap :=
  ⟨⟨Or.inr ⟨0, ⟨cap, cells [1, 2, 3]⟩, rfl, rfl, rfl, Nat.zero_le _, h2⟩, rfl, rfl⟩, h1⟩

example (cap : Nat) : Fresh (aliasHeap cap).1 := fun b hb => by
  have h1 : (1 : Nat) ≤ b := hb
  show upd (fun _ => none) 0 (some (⟨cap, cells [1, 2, 3]⟩ : Blk Nat)) b = none
  exact upd_other _ _ (fun e : b = 0 => by omega)

example : [PSrc.self 2 true, .lit 7 false, .self 0 false].map (PSrc.now [1, 2, 3]) =
    [(⟨3, true⟩ : Item Nat), ⟨7, false⟩, ⟨1, false⟩].map some := rfl

example : ∀ c ∈ [PSrc.self 1 false, .lit 7 false, .self 0 false], PSrc.Before (V := Nat) 2 c := by
  simp [PSrc.Before]

example : shown (vec Nat 0 9) ((vec Nat 0 9).appendRefs (aliasHeap 4).1 (aliasHeap 4).2 ((List.range 3).map fun k => .self k false) fun _ => false) =
    some [some 1, some 2, some 3, some 1, some 2, some 3] := by decide +kernel

example : shown (stat Nat 4) ((stat Nat 4).stdInsert ⟨fun _ => none, 0⟩ alias123 0 0 false fun _ => false) =
    some [some 1, some 1, some 2, some 3] := by decide +kernel

example : shown (vec Nat 0 9) ((vec Nat 0 9).resizeFrom (aliasHeap 4).1 (aliasHeap 4).2 6 1 (fun _ => false) fun _ => false) =
    some [some 1, some 2, some 3, some 2, some 2, some 2] := by decide +kernel

end Verif.Containers
