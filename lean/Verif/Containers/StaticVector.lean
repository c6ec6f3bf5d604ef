import Verif.Containers.VectorProps

/-!
# `static_vector` (property C28)

source/containers/static_vector.cpp 46-150: `N` slots inside the object and a size. Everything
is for arbitrary `N`.
-/

namespace Verif.Containers

open Verif Impl Lawful

variable {V : Type}

/-- The members of a `static_vector`: `m_storage` (lines 145) and `m_size` (line 146). -/
structure Stat (V : Type) where
  cell : Cells V
  size : Nat

namespace Stat

/-- The destructor, `static_vector.cpp` 77-80. An element that is alive afterwards would never be destroyed. -/
def dtor (N : Nat) (h : Heap V) (o : Stat V) : Option (Heap V) :=
  match destroyRange N o.cell 0 o.size with
  | none => none
  | some c => if ∀ k < N, (c k).isNone then some h else none

end Stat

/-- `static_vector<T, N>`. `reserve`, `replace_empty_allocation` do not exist; the generic
operations do not use them, nor move assignment, for a container without `reserve`. -/
def stat (V : Type) (N : Nat) : Impl V (Stat V) where
  mx := N
  reservable := false
  ptr _ := none
  size o := o.size
  capacity _ := some N
  mem _ o := (N, o.cell)
  put h o c := (h, { o with cell := c })
  setSize o n := if n ≤ N then some { o with size := n } else none
  new h _ := .ok (h, ⟨fun _ => none, 0⟩)
  reserve h o n _ := if n ≤ N then .ok (h, o) else .ub
  replaceEmpty _ _ _ _ := .ub
  moveAssign _ _ _ := none
  dtor := Stat.dtor N

namespace Stat

theorem frame_none (N : Nat) (h : Heap V) (o o' : Stat V) : Frame ((stat V N).own o) h ((stat V N).own o') h :=
  (Frame.refl (fun _ => False) h).congr (fun b => by simp [Impl.own, stat]) (fun b => by simp [Impl.own, stat])

theorem frame_new (N : Nat) (h : Heap V) (o : Stat V) : Frame (fun _ => False) h ((stat V N).own o) h :=
  (Frame.refl (fun _ => False) h).congr (fun _ => Iff.rfl) (fun b => by simp [Impl.own, stat])

theorem frame_drop (N : Nat) (h : Heap V) (o : Stat V) : Frame ((stat V N).own o) h (fun _ => False) h :=
  (Frame.refl (fun _ => False) h).congr (fun b => by simp [Impl.own, stat]) (fun _ => Iff.rfl)

theorem dtor_eq {N : Nat} {h : Heap V} {o : Stat V} {xs : List V} (hc : o.cell = cells xs)
    (hs : o.size = xs.length) (hl : xs.length ≤ N) : dtor N h o = some h := by
  have : destroyRange N (cells xs) 0 xs.length = some (cells []) := by
    rw [destroyRange_eq N xs.length _ 0 (by omega) (fun j _ h2 => cells_live (by omega))]
    congr 1
    funext k
    simp only [cleared, cells]
    split
    · simp
    · rename_i hk
      rw [List.getElem?_eq_none (by omega)]; simp
  simp only [dtor, hc, hs, this]
  rw [if_pos (by intro k _; simp [cells])]

/-- `static_vector` offers what the generic operations need. -/
def lawful (N : Nat) : Lawful (stat V N) N false where
  wf _ _ := True
  wf_cap := fun _ => rfl
  wf_range := fun _ => ⟨Nat.le_refl _, Nat.le_refl _⟩
  wf_owned := by intro h o b _ hb; cases hb
  wf_keep := fun _ _ => ⟨trivial, rfl⟩
  put_law := by intro h o c _; exact ⟨trivial, rfl, rfl, rfl, frame_none N h o o⟩
  size_law := by
    intro h o n _ hn
    have hn : n ≤ N := hn
    exact ⟨{ o with size := n }, by simp [stat, hn], trivial, rfl, rfl, rfl⟩
  mk_exn := by intro h hm; cases hm
  mk_ok := by
    intro h f _ _
    exact ⟨h, ⟨fun _ => none, 0⟩, rfl, trivial, rfl, rfl, frame_new N h _, fun _ => rfl⟩
  reserve_none := by
    intro h o n f _ hn
    have hn : n ≤ N := hn
    show (if n ≤ N then Out.ok (h, o) else .ub) = _
    rw [if_pos hn]
  reserve_exn := by intro h o n hr; cases hr
  reserve_ok := by intro h o n xs hr; cases hr
  replace_ok := by intro h o n hr; cases hr
  move_law := by intro h o t hr; cases hr
  dtor_law := by
    intro h o xs _ hc hs hl
    exact ⟨h, dtor_eq hc hs hl, frame_drop N h o⟩

end Stat

/-! ### Special members -/

/-- `std::swap_ranges` on the elements `[k, k + n)` of two blocks. -/
def swapRanges (cap : Nat) (k : Nat) : Nat → Cells V → Cells V → Option (Cells V × Cells V)
  | 0, a, b => some (a, b)
  | n + 1, a, b =>
    match readCell cap a k, readCell cap b k with
    | some x, some y => swapRanges cap (k + 1) n (upd a k (some y)) (upd b k (some x))
    | _, _ => none

theorem swapRanges_eq (cap : Nat) : ∀ (n k : Nat) (a b : Cells V), k + n ≤ cap →
    (∀ j, k ≤ j → j < k + n → (a j).isSome ∧ (b j).isSome) →
    swapRanges cap k n a b = some (fun j => if k ≤ j ∧ j < k + n then b j else a j,
      fun j => if k ≤ j ∧ j < k + n then a j else b j) := by
  intro n
  induction n with
  | zero =>
    intro k a b _ _
    simp only [swapRanges, Option.some.injEq, Prod.mk.injEq]
    constructor <;> funext j <;> rw [if_neg (by omega)]
  | succ n ih =>
    intro k a b hc hl
    obtain ⟨h1, h2⟩ := hl k (by omega) (by omega)
    obtain ⟨x, hx⟩ := Option.isSome_iff_exists.1 h1
    obtain ⟨y, hy⟩ := Option.isSome_iff_exists.1 h2
    simp only [swapRanges, readCell, if_pos (show k < cap by omega), hx, hy]
    rw [ih (k + 1) _ _ (by omega) (by
      intro j h3 h4
      rw [upd_other _ _ (by omega), upd_other _ _ (by omega)]
      exact hl j (by omega) (by omega))]
    simp only [Option.some.injEq, Prod.mk.injEq]
    constructor <;> funext j <;> simp only [upd] <;> by_cases h3 : j = k
    · subst h3; rw [if_neg (by omega), if_pos rfl, if_pos (by omega), hy]
    · by_cases h4 : k ≤ j ∧ j < k + (n + 1)
      · rw [if_pos (by omega), if_pos h4, if_neg h3]
      · rw [if_neg (by omega), if_neg h4, if_neg h3]
    · subst h3; rw [if_neg (by omega), if_pos rfl, if_pos (by omega), hx]
    · by_cases h4 : k ≤ j ∧ j < k + (n + 1)
      · rw [if_pos (by omega), if_pos h4, if_neg h3]
      · rw [if_neg (by omega), if_neg h4, if_neg h3]

/-- Operations with two static vectors. -/
inductive SBin (V : Type) where
  /-- move assignment, lines 83-88, of elements whose move does not throw; `mv v` is what moving
  from the element `v` leaves behind -/
  | move (mv : V → V) (junk : V)
  /-- copy assignment, lines 91-98; `left` is what a failed element assignment leaves behind -/
  | copy (thr : Nat → Bool) (left : V)
  /-- assignment of trivially copyable elements, lines 82 and 90 -/
  | trivial
  | swap

/-- Constructors. -/
inductive SCtor (V : Type) where
  | dflt
  | sized (src : List (Item V))
  | unsized (src : List (Item V))

/-- Constructors from another static vector. -/
inductive SFrom where
  | copy (thr : Nat → Bool)
  | move
  /-- copy or move of trivially copyable elements, lines 50 and 58 -/
  | trivial

namespace Stat

/-- An exception leaves a constructor: only the destructor of `m_storage` runs, which does not
destroy elements. -/
def discard (N : Nat) (r : Heap V × Stat V) : Made (Heap V) (Heap V × Stat V) :=
  if ∀ k < N, (r.2.cell k).isNone then .exn r.1 else .ub

/-- `static_vector.cpp` 48, 65-75. -/
def ctor (N : Nat) : SCtor V → Heap V → Made (Heap V) (Heap V × Stat V)
  | .dflt, h => .ok (h, ⟨fun _ => none, 0⟩)
  | .sized src, h =>
    match (stat V N).assignToEmpty h ⟨fun _ => none, 0⟩ src (fun _ => false) with
    | .ok r => .ok r
    | .exn r => discard N r
    | .ub => .ub
  | .unsized src, h =>
    match (stat V N).appendUnsized h ⟨fun _ => none, 0⟩ (fun _ => false) src with
    | .ok r => .ok r
    | .exn r => discard N r
    | .ub => .ub

/-- `static_vector.cpp` 50-63. -/
def ctorFrom (N : Nat) : SFrom → Heap V → Stat V → Made (Heap V × Stat V) (Heap V × Stat V × Stat V)
  | .trivial, h, t => .ok (h, t, t)
  | .move, h, t =>
    match relocTo N N t.cell (fun _ => none) 0 0 t.size with
    | none => .ub
    | some (a, b) => .ok (h, ⟨b, t.size⟩, ⟨a, 0⟩)
  | .copy thr, h, t =>
    match readFrom N t.cell 0 t.size with
    | none => .ub
    | some vs =>
      match (stat V N).copyAt h ⟨fun _ => none, 0⟩ 0 (items vs thr) with
      | .ub => .ub
      | .ok r => .ok (r.1, { r.2 with size := vs.length }, t)
      | .exn r =>
        match discard N r with
        | .exn h' => .exn (h', t)
        | _ => .ub

/-- `static_vector.cpp` 122-137 for two different vectors. -/
def swap (N : Nat) (o t : Stat V) : Option (Stat V × Stat V) :=
  let impl := fun (longer shorter : Stat V) =>
    (swapRanges N 0 shorter.size shorter.cell longer.cell).bind fun (s, l) =>
      relocTo N N l s shorter.size shorter.size (longer.size - shorter.size)
  if t.size ≤ o.size then (impl o t).map fun (l, s) => (⟨l, t.size⟩, ⟨s, o.size⟩)
  else (impl t o).map fun (l, s) => (⟨s, t.size⟩, ⟨l, o.size⟩)

/-- Two different static vectors. -/
def bin (N : Nat) : SBin V → Heap V → Stat V → Stat V → Out (Heap V × Stat V × Stat V)
  | .trivial, h, _, t => .ok (h, t, t)
  | .swap, h, o, t =>
    match swap N o t with
    | none => .ub
    | some (o', t') => .ok (h, o', t')
  | .copy thr left, h, o, t =>
    match readFrom N t.cell 0 t.size with
    | none => .ub
    | some vs =>
      match (stat V N).assign h o (items vs thr) left (fun _ => false) with
      | .ub => .ub
      | .exn r => .exn (r.1, r.2, t)
      | .ok r => .ok (r.1, r.2, t)
  | .move mv junk, h, o, t =>
    match readFrom N t.cell 0 t.size with
    | none => .ub
    | some vs =>
      match (stat V N).assign h o (items vs fun _ => false) junk (fun _ => false) with
      | .ub => .ub
      | .exn r => .exn (r.1, r.2, t)
      | .ok r => .ok (r.1, r.2, { t with cell := fun k => (t.cell k).map mv })

/-- The same static vector on both sides. Self move assignment of elements is up to the element
type and is not modelled. -/
def self : SBin V → Heap V → Stat V → Out (Heap V × Stat V)
  | .move _ _, _, _ => .ub
  | _, h, o => .ok (h, o)

end Stat

/-- The constants of `static_vector<T, N>`. -/
def scfg (N : Nat) : Cfg := ⟨N, N, false, false⟩

/-- An operation on one static vector. -/
def sunS (N : Nat) (u : GOp V) (xs : List V) : List V × Bool :=
  let r := u.spec (scfg N) (xs, N)
  (r.1.1, r.2)

/-- Assignment of the elements `ys`, the first throwing one given by `thr`: elementwise as far
as both go, then the rest is added or removed. -/
def sassignS (xs ys : List V) (thr : Nat → Bool) (left : V) : List V × Bool :=
  match (items (ys.take xs.length) thr).findIdx? (·.throws) with
  | some j => (ys.take j ++ left :: xs.drop (j + 1), true)
  | none => if (items ys thr).any (·.throws) then (ys.take xs.length, true) else (ys, false)

/-- Operations with two static vectors. -/
def sbinS : SBin V → List V → List V → (List V × List V) × Bool
  | .trivial, _, ys => ((ys, ys), false)
  | .swap, xs, ys => ((ys, xs), false)
  | .copy thr left, xs, ys => (((sassignS xs ys thr left).1, ys), (sassignS xs ys thr left).2)
  | .move mv _, _, ys => ((ys, ys.map mv), false)

/-- Constructors: more elements than `N` throw. -/
def sctorS (N : Nat) : SCtor V → List V × Bool
  | .dflt => ([], false)
  | .sized src => (src.map (·.val), decide (N < src.length) || src.any (·.throws))
  | .unsized src => (src.map (·.val), decide (N < src.length) || src.any (·.throws))

/-- Constructors from another static vector. -/
def sfromS : SFrom → List V → (List V × List V) × Bool
  | .trivial, xs => ((xs, xs), false)
  | .move, xs => ((xs, []), false)
  | .copy thr, xs => ((xs, xs), (items xs thr).any (·.throws))

/-- `static_vector<T, N>` with its specification. -/
def ssys (V : Type) (N : Nat) : Sys V (Stat V) (List V) (GOp V) (SBin V) (SCtor V) SFrom where
  own := (stat V N).own
  un u h o := (stat V N).step N h o u
  bin := Stat.bin N
  self := Stat.self
  ctor := Stat.ctor N
  ctorFrom := Stat.ctorFrom N
  dtor := Stat.dtor N
  unS := sunS N
  binS := sbinS
  selfS _ xs := (xs, false)
  ctorS := sctorS N
  ctorFromS := sfromS
  unP u xs := u.pre (scfg N) (xs, N)
  binP _ _ _ := True
  selfP b _ := match b with
    | .move _ _ => False
    | _ => True
  ctorP _ := True
  ctorFromP _ _ := True

/-- What a static vector is in memory: exactly the slots `[0, size)` are alive. -/
def sinv (N : Nat) (_ : Heap V) (o : Stat V) (xs : List V) : Prop :=
  o.cell = cells xs ∧ o.size = xs.length ∧ xs.length ≤ N

namespace Stat

variable {N : Nat}

theorem cfg_eq : (lawful (V := V) N).cfg = scfg N := rfl

theorem rep_iff {h : Heap V} {o : Stat V} {xs : List V} {cap : Nat} :
    (lawful N).Rep h o xs cap ↔ sinv N h o xs ∧ cap = N := by
  constructor
  · rintro ⟨⟨_, hm, hs⟩, hl⟩
    have h1 : N = cap := congrArg Prod.fst hm
    have h2 : o.cell = cells xs := congrArg Prod.snd hm
    exact ⟨⟨h2, hs, by omega⟩, h1.symm⟩
  · rintro ⟨⟨h1, h2, h3⟩, rfl⟩
    refine ⟨⟨trivial, ?_, h2⟩, h3⟩
    show (cap, o.cell) = _
    rw [h1]; rfl

theorem inv_good {h : Heap V} {o : Stat V} {x : Out (Heap V × Stat V)} {s : SV V × Bool}
    (g : (lawful N).Good h o x s) :
    ∃ h' o', x = Out.of s.2 (h', o') ∧ sinv N h' o' s.1.1 ∧ Frame ((stat V N).own o) h ((stat V N).own o') h' := by
  obtain ⟨h', o', e, r, f, _⟩ := g
  exact ⟨h', o', e, (rep_iff.1 r).1, f⟩

theorem inv_read {h : Heap V} {o : Stat V} {xs : List V} (v : sinv N h o xs) :
    readFrom N o.cell 0 o.size = some xs := by
  obtain ⟨h1, h2, h3⟩ := v
  rw [h1, h2, readFrom_eq N xs h3 _ _ (by omega)]; rfl

theorem empty_rep (h : Heap V) : (lawful N).Rep h ⟨fun _ => none, 0⟩ [] N :=
  rep_iff.2 ⟨⟨by funext k; simp [cells], rfl, by simp⟩, rfl⟩

theorem discard_eq {h : Heap V} {o : Stat V} (hc : o.cell = cells []) : discard N (h, o) = .exn h := by
  simp only [discard, hc]
  rw [if_pos (by intro k _; simp [cells])]

/-- The specification of `assign` in terms of `sassignS`. -/
theorem assign_spec {xs ys : List V} (hy : ys.length ≤ N) (hx : xs.length ≤ N) (thr : Nat → Bool) (left : V) :
    (GOp.assign (items ys thr) left fun _ => false).spec (scfg N) (xs, N) =
      (((sassignS xs ys thr left).1, N), (sassignS xs ys thr left).2) := by
  have hm : (items ys thr).map (·.val) = ys := vals_items ys thr
  have htk : (items ys thr).take xs.length = items (ys.take xs.length) thr := by
    apply List.ext_getElem
    · simp [items]
    · intro i h1 h2; simp [items]
  simp only [GOp.spec, hm, htk, sassignS]
  cases hf : (items (ys.take xs.length) thr).findIdx? (·.throws) with
  | some j => rfl
  | none =>
    simp only
    have hnt : ((items ys thr).drop xs.length).any (·.throws) = (items ys thr).any (·.throws) := by
      have h1 : (items (ys.take xs.length) thr).any (·.throws) = false := by
        rw [List.findIdx?_eq_none_iff] at hf
        rw [List.any_eq_false]
        intro x hx; simp [hf x hx]
      rw [← htk] at h1
      conv_rhs => rw [← List.take_append_drop xs.length (items ys thr), List.any_append, h1, Bool.false_or]
    have hd : ((items ys thr).drop xs.length).map (·.val) = ys.drop xs.length := by
      rw [List.map_drop, hm]
    rw [hd, hnt]
    simp only [specInsert, List.length_take, List.length_drop]
    rw [if_pos (by omega)]
    cases (items ys thr).any (·.throws)
    · simp only [Bool.not_false, if_true, Bool.false_eq_true, if_false]
      rw [List.take_of_length_le (i := min xs.length ys.length) (by simp),
        List.drop_eq_nil_of_le (i := min xs.length ys.length) (by simp), List.append_nil, List.take_append_drop]
    · simp

theorem assign_ok {h : Heap V} (hf : Fresh h) {o : Stat V} {xs ys : List V} (v : sinv N h o xs)
    (hy : ys.length ≤ N) (thr : Nat → Bool) (left : V) :
    ∃ h' o', (stat V N).assign h o (items ys thr) left (fun _ => false) =
        Out.of (sassignS xs ys thr left).2 (h', o') ∧ sinv N h' o' (sassignS xs ys thr left).1 ∧
      Frame ((stat V N).own o) h ((stat V N).own o') h' := by
  have g := good_step (rep_iff.2 ⟨v, rfl⟩) hf (.assign (items ys thr) left fun _ => false) (by
    intro _
    left
    have := v.2.2
    simp only [items_length, List.length_take]
    omega)
  rw [cfg_eq, assign_spec hy v.2.2] at g
  exact inv_good g

theorem sassign_none (xs ys : List V) (left : V) : sassignS xs ys (fun _ => false) left = (ys, false) := by
  have : ∀ zs : List V, (items zs fun _ => false).any (·.throws) = false := by
    intro zs
    rw [List.any_eq_false]
    intro x hx
    simp only [items, List.mem_mapIdx] at hx
    obtain ⟨i, hi, rfl⟩ := hx
    simp
  have h2 : (items (ys.take xs.length) fun _ => false).findIdx? (·.throws) = none := by
    rw [List.findIdx?_eq_none_iff]
    intro x hx
    simp only [items, List.mem_mapIdx] at hx
    obtain ⟨i, hi, rfl⟩ := hx
    rfl
  simp only [sassignS, h2, this, Bool.false_eq_true, if_false]

/-- `swap` exchanges the contents. -/
theorem swap_ok {o t : Stat V} {xs ys : List V} {h : Heap V} (v : sinv N h o xs) (w : sinv N h t ys) :
    ∃ o' t', swap N o t = some (o', t') ∧ sinv N h o' ys ∧ sinv N h t' xs := by
  obtain ⟨v1, v2, v3⟩ := v
  obtain ⟨w1, w2, w3⟩ := w
  have key : ∀ (l s : List V), l.length ≤ N → s.length ≤ l.length →
      ((swapRanges N 0 s.length (cells s) (cells l)).bind fun (a, b) =>
        relocTo N N b a s.length s.length (l.length - s.length)) = some (cells s, cells l) := by
    intro l s hl hs
    rw [swapRanges_eq N _ 0 _ _ (by omega) (fun j _ h2 => ⟨cells_live (by omega), cells_live (by omega)⟩)]
    simp only [Option.bind_some]
    have := relocTo_eq N N (l.drop s.length) (fun j => if 0 ≤ j ∧ j < 0 + s.length then cells s j else cells l j)
      (fun j => if 0 ≤ j ∧ j < 0 + s.length then cells l j else cells s j) s.length s.length
      (by simp; omega) (by simp; omega)
      (by
        intro j hj
        simp only [List.length_drop] at hj
        rw [if_neg (by omega)]
        simp only [cells, List.getElem_drop]
        rw [List.getElem?_eq_getElem (by omega)])
      (by intro j h1 h2; rw [if_neg (by omega)]; exact cells_raw (by omega))
    rw [List.length_drop] at this
    rw [this]
    simp only [Option.some.injEq, Prod.mk.injEq]
    constructor
    · funext j
      simp only [cleared]
      by_cases h1 : j < s.length
      · rw [if_neg (by omega), if_pos (by omega)]
      · rw [cells_raw (xs := s) (by omega)]
        split
        · rfl
        · rw [if_neg (by omega)]; exact cells_raw (by omega)
    · funext j
      simp only [written, List.length_drop]
      by_cases h1 : j < s.length
      · rw [if_neg (by omega), if_pos (by omega)]
      · by_cases h2 : j < l.length
        · rw [if_pos (by omega)]
          simp only [cells, List.getElem?_drop]
          congr 1; omega
        · rw [if_neg (by omega), if_neg (by omega), cells_raw (by omega), cells_raw (by omega)]
  simp only [swap, v1, v2, w1, w2]
  by_cases hle : ys.length ≤ xs.length
  · rw [if_pos hle, key xs ys v3 hle]
    exact ⟨_, _, rfl, ⟨rfl, rfl, w3⟩, ⟨rfl, rfl, v3⟩⟩
  · rw [if_neg hle, key ys xs w3 (by omega)]
    exact ⟨_, _, rfl, ⟨rfl, rfl, w3⟩, ⟨rfl, rfl, v3⟩⟩

/-- A constructor that fills an empty vector, and destroys nothing if an exception leaves it. -/
theorem made_ok {h : Heap V} {x : Out (Heap V × Stat V)} {s : SV V × Bool} {e : List V × Bool}
    (g : (lawful N).Good h ⟨fun _ => none, 0⟩ x s) (h1 : s.2 = e.2) (h2 : s.2 = true → s.1.1 = [])
    (h3 : s.2 = false → s.1.1 = e.1) :
    ∃ h' o, (match x with | .ok r => .ok r | .exn r => discard N r | .ub => .ub : Made (Heap V) (Heap V × Stat V)) =
        Made.of e.2 h' (h', o) ∧
      (e.2 = true → Frame (fun _ => False) h (fun _ => False) h') ∧
      (e.2 = false → sinv N h' o e.1 ∧ Frame (fun _ => False) h ((stat V N).own o) h') := by
  obtain ⟨h', o', ex, v', f⟩ := inv_good g
  have fr : Frame (fun _ => False) h (fun _ => False) h' :=
    f.congr (fun b => by simp [Impl.own, stat]) (fun b => by simp [Impl.own, stat])
  refine ⟨h', o', ?_, fun _ => fr, fun q => ?_⟩
  · rw [ex, ← h1]
    cases hs : s.2
    · rfl
    · show discard N (h', o') = _
      rw [discard_eq (v'.1.trans (by rw [h2 hs]))]; rfl
  · rw [← h1] at q
    rw [← h3 q]
    exact ⟨v', fr.congr (fun _ => Iff.rfl) (fun b => by simp [Impl.own, stat])⟩

/-- Every operation of `static_vector` by itself. -/
theorem laws (N : Nat) : (ssys V N).Laws (sinv N) where
  owned := by intro h o a b _ hb; cases hb
  keep := fun v _ => v
  un := by
    intro h o a u hf v hp
    exact inv_good (good_step (rep_iff.2 ⟨v, rfl⟩) hf u hp)
  bin := by
    intro h o t a b x hf v w hap hp
    have nb : ∀ (o' t' : Stat V) c, (ssys V N).own o' c → ¬ (ssys V N).own t' c := by
      intro o' t' c hc; cases hc
    have fr : ∀ (o' t' : Stat V), Frame (fun c => (ssys V N).own o c ∨ (ssys V N).own t c) h
        (fun c => (ssys V N).own o' c ∨ (ssys V N).own t' c) h := fun o' t' =>
      (Frame.refl (fun _ => False) h).congr (fun c => by simp [ssys, Impl.own, stat]) (fun c => by simp [ssys, Impl.own, stat])
    cases x with
    | trivial => exact ⟨h, t, t, rfl, w, w, nb _ _, fr _ _⟩
    | swap =>
      obtain ⟨o', t', e, v', w'⟩ := swap_ok v w
      exact ⟨h, o', t', by show (match swap N o t with | none => Out.ub | some (o', t') => .ok (h, o', t')) = _; rw [e]; rfl,
        v', w', nb _ _, fr _ _⟩
    | copy thr left =>
      obtain ⟨h', o', e, v', f⟩ := assign_ok hf v w.2.2 thr left
      refine ⟨h', o', t, ?_, v', w, nb _ _, (f.more ((stat V N).own t))⟩
      show (match readFrom N t.cell 0 t.size with | none => Out.ub | some vs => _) = _
      rw [inv_read w]
      simp only
      rw [e]
      show _ = Out.of (sassignS a b thr left).2 _
      cases (sassignS a b thr left).2 <;> rfl
    | move mv junk =>
      obtain ⟨h', o', e, v', f⟩ := assign_ok hf v w.2.2 (fun _ => false) junk
      rw [sassign_none] at e v'
      refine ⟨h', o', { t with cell := fun k => (t.cell k).map mv }, ?_, v', ?_, nb _ _, (f.more ((stat V N).own t))⟩
      · show (match readFrom N t.cell 0 t.size with | none => Out.ub | some vs => _) = _
        rw [inv_read w]
        simp only
        rw [e]; rfl
      · refine ⟨?_, by show t.size = (b.map mv).length; rw [w.2.1]; simp, by show (b.map mv).length ≤ N; simpa using w.2.2⟩
        funext k
        show (t.cell k).map mv = cells (b.map mv) k
        rw [w.1]; simp [cells]
  self := by
    intro h o a x hf v hp
    cases x with
    | move _ _ => exact absurd hp id
    | trivial => exact ⟨h, o, rfl, v, Frame.refl _ _⟩
    | swap => exact ⟨h, o, rfl, v, Frame.refl _ _⟩
    | copy _ _ => exact ⟨h, o, rfl, v, Frame.refl _ _⟩
  ctor := by
    intro h c hf _
    cases c with
    | dflt =>
      exact ⟨h, ⟨fun _ => none, 0⟩, rfl, fun q => (by cases q), fun _ => ⟨(rep_iff.1 (empty_rep h)).1, frame_new N h _⟩⟩
    | sized src =>
      have g := good_step (empty_rep (N := N) h) hf (.assignTrivial src fun _ => false) (by intro hr; cases hr)
      refine made_ok (good_assignToEmpty (empty_rep (N := N) h) hf src (fun _ => false) (by intro hr; cases hr)) ?_ ?_ ?_
      all_goals
        simp only [GOp.spec, cfg_eq, scfg, ssys, sctorS]
        by_cases hl : N < src.length <;> cases ht : src.any (·.throws) <;> simp [hl]
    | unsized src =>
      refine made_ok (good_appendUnsized (empty_rep (N := N) h) hf src (fun _ => false) (by
        simp [GOp.pre, cfg_eq, scfg])) ?_ ?_ ?_
      all_goals
        simp only [GOp.spec, cfg_eq, scfg, ssys, sctorS, specInsert]
        by_cases hl : N < src.length <;> cases ht : src.any (·.throws) <;>
          simp [hl, (by omega : src.length ≤ N ↔ ¬ N < src.length)]
  ctorFrom := by
    intro h t a x hf w _
    have nb : ∀ (o' t' : Stat V) c, (ssys V N).own o' c → ¬ (ssys V N).own t' c := by
      intro o' t' c hc; cases hc
    have fr : ∀ (o' t' : Stat V), Frame ((ssys V N).own t) h
        (fun c => (ssys V N).own o' c ∨ (ssys V N).own t' c) h := fun o' t' =>
      (Frame.refl (fun _ => False) h).congr (fun c => by simp [ssys, Impl.own, stat]) (fun c => by simp [ssys, Impl.own, stat])
    cases x with
    | trivial => exact ⟨h, t, t, rfl, w, fun q => (by cases q), fun _ => ⟨w, nb _ _, fr _ _⟩⟩
    | move =>
      obtain ⟨w1, w2, w3⟩ := w
      have := relocTo_eq N N a (cells a) (fun _ => none) 0 0 (by omega) (by omega)
        (by intro j hj; simp [cells, List.getElem?_eq_getElem hj]) (fun _ _ _ => rfl)
      refine ⟨h, ⟨cells a, a.length⟩, ⟨cells [], 0⟩, ?_, ⟨rfl, rfl, Nat.zero_le _⟩, fun q => (by cases q),
        fun _ => ⟨⟨rfl, rfl, w3⟩, nb _ _, fr _ _⟩⟩
      show (match relocTo N N t.cell (fun _ => none) 0 0 t.size with | none => Made.ub | some (x, y) => _) = _
      rw [w1, w2, this]
      simp only
      have e1 : cleared (cells a) 0 a.length = cells [] := by
        funext k
        simp only [cleared, cells]
        split
        · simp
        · rename_i hk
          rw [List.getElem?_eq_none (by omega)]; simp
      have e2 : written (fun _ => none) 0 a = cells a := by
        funext k
        simp only [written, cells]
        split
        · simp
        · rename_i hk
          rw [List.getElem?_eq_none (by omega)]
      rw [e1, e2]; rfl
    | copy thr =>
      obtain ⟨h', o', e, v, eo, f⟩ := (empty_rep (N := N) h).view.copyAt (pos := 0) (src := items a thr)
        (by simpa using w.2.2) (fun j _ _ => by simp [cells])
      have hm : o'.cell = _ := congrArg Prod.snd v.2.1
      have en : (items a thr).any (·.throws) = !noThrow (items a thr) := by simp [noThrow]
      have frm : Frame (fun _ => False) h (fun _ => False) h' :=
        f.congr (fun b => by simp [Impl.own, stat]) (fun b => by simp [Impl.own, stat])
      refine ⟨h', { o' with size := a.length }, t, ?_, w, fun _ => ?_, fun q => ?_⟩
      · show (match readFrom N t.cell 0 t.size with | none => Made.ub | some vs => _) =
          Made.of ((items a thr).any (·.throws)) _ _
        rw [inv_read w]
        simp only
        rw [e, en]
        cases hn : noThrow (items a thr)
        · show (match discard N (h', o') with | .exn h' => Made.exn (h', t) | _ => .ub) = _
          rw [discard_eq (by rw [hm, hn]; simp [cells])]; rfl
        · rfl
      · exact frm.congr (fun b => by simp [ssys, Impl.own, stat]) (fun b => by simp [ssys, Impl.own, stat])
      · refine ⟨⟨?_, rfl, w.2.2⟩, nb _ _,
          frm.congr (fun b => by simp [ssys, Impl.own, stat]) (fun b => by simp [ssys, Impl.own, stat])⟩
        have q : (items a thr).any (·.throws) = false := q
        show o'.cell = cells a
        have hn : noThrow (items a thr) = true := by rw [en] at q; simpa using q
        rw [hm, hn, if_pos rfl, show vals (items a thr) = a from vals_items a thr]
        funext k
        simp only [written, cells]
        split
        · simp
        · rename_i hk
          rw [List.getElem?_eq_none (by simp), List.getElem?_eq_none (by omega)]
  dtor := by
    intro h o a v
    exact ⟨h, dtor_eq v.1 v.2.1 v.2.2, frame_drop N h o⟩

end Stat

/-! ### C28 -/

/-- What can be seen of a `static_vector` of capacity `N`: its size, its elements, and that the
other slots hold nothing. -/
structure StatShows (N : Nat) (o : Stat V) (xs : List V) : Prop where
  size : o.size = xs.length
  bound : xs.length ≤ N
  elem : ∀ k (hk : k < xs.length), readCell N o.cell k = some xs[k]
  rest : ∀ k, xs.length ≤ k → o.cell k = none

theorem statShows_of {N : Nat} {h : Heap V} {o : Stat V} {xs : List V} (v : sinv N h o xs) : StatShows N o xs := by
  obtain ⟨h1, h2, h3⟩ := v
  refine ⟨h2, h3, fun k hk => ?_, fun k hk => ?_⟩
  · simp only [readCell, h1, cells]
    rw [if_pos (by omega), List.getElem?_eq_getElem hk]
  · rw [h1]; exact cells_raw hk

/-- C28: every history of a program with any number of `static_vector`s of capacity `N`
(constructors, copies, moves, swaps, assignments, `push_back`, `append`, `insert`, `erase`,
`resize`, ..., destruction), with any element throwing, never goes wrong (in particular never
touches memory outside the `N` slots), throws exactly when the specification on sequences says
so, leaves every vector with exactly the specified elements, and destroys every element.

Partial: `append`, `resize` and an `append` of a range without a size are covered when the result
fits, when the source alone has more than `N` elements, or (without a size) when the vector is
empty; see `C28_append_violated` for the other sources. -/
theorem C28_static_vector_history_partial (N : Nat)
    (ops : List (WOp (GOp V) (SBin V) (SCtor V) SFrom))
    (hp : PreHist (ssys V N).spec (ssys V N).pre (fun _ => none) ops) :
    ∃ w, runHist (ssys V N).step (start V (Stat V)) ops =
        some (w, (specHist (ssys V N).spec (fun _ => none) ops).2) ∧
      (∀ b, w.1.blk b = none) ∧
      ∀ i, match (specHist (ssys V N).spec (fun _ => none) ops).1 i with
        | none => w.2 i = none
        | some xs => ∃ o, w.2 i = some o ∧ StatShows N o xs := by
  obtain ⟨w, h1, R⟩ := Sys.world_refines (Stat.laws N) ops hp
  refine ⟨w, h1, fun b => ?_, fun i => ?_⟩
  · cases hb : w.1.blk b with
    | none => rfl
    | some x =>
      obtain ⟨i, o, _, ho⟩ := R.noLeak b (by rw [hb]; simp)
      cases ho
  · cases hs : (specHist (ssys V N).spec (fun _ => none) ops).1 i with
    | none => exact R.absent hs
    | some a =>
      obtain ⟨o, ho, v⟩ := R.obj hs
      exact ⟨o, ho, statShows_of v⟩

/-- C28: an addition that does not fit throws and changes nothing: `push_back` of any element on
a full vector, `insert` of more elements than there is room for, and construction from or
`append` of a source longer than `N`; one that fits and whose elements do not throw succeeds. -/
theorem C28_over_capacity {N : Nat} {h : Heap V} (hf : Fresh h) {o : Stat V} {xs : List V} (v : sinv N h o xs)
    (src : List (Item V)) (k : Nat) (hk : k ≤ xs.length) :
    (N < xs.length + src.length → src ≠ [] →
      ∃ h' o', (stat V N).step N h o (.insert k src fun _ => false) = .exn (h', o') ∧ StatShows N o' xs) ∧
    (N < src.length →
      (∃ h' o', (stat V N).step N h o (.append src fun _ => false) = .exn (h', o') ∧ StatShows N o' xs) ∧
      ∃ h', Stat.ctor N (.sized src) h = .exn h' ∧ Frame (fun _ => False) h (fun _ => False) h') ∧
    (xs.length = N → ∀ x t, ∃ h' o', (stat V N).step N h o (.push (.lit x t) fun _ => false) = .exn (h', o') ∧
      StatShows N o' xs) ∧
    (xs.length + src.length ≤ N → (∀ it ∈ src, it.throws = false) → src ≠ [] →
      ∃ h' o', (stat V N).step N h o (.insert k src fun _ => false) = .ok (h', o') ∧
        StatShows N o' (xs.take k ++ src.map (·.val) ++ xs.drop k)) := by
  have r := Stat.rep_iff.2 ⟨v, rfl⟩
  have hv := v.2.2
  refine ⟨fun h1 h2 => ?_, fun h1 => ⟨?_, ?_⟩, fun h1 x t => ?_, fun h1 h2 h3 => ?_⟩
  · obtain ⟨h', o', e, v', _⟩ := Stat.inv_good (good_step r hf (.insert k src fun _ => false) ⟨hk, fun q => absurd q h2⟩)
    have hs : (GOp.insert k src fun _ => false).spec (scfg N) (xs, N) = ((xs, N), true) := by
      simp only [GOp.spec, specInsert, scfg, List.length_map, Bool.not_false, Bool.true_or, if_true]
      rw [if_neg (by omega)]
    rw [Stat.cfg_eq, hs] at e v'
    exact ⟨h', o', e, statShows_of v'⟩
  · obtain ⟨h', o', e, v', _⟩ := Stat.inv_good (good_step r hf (.append src fun _ => false) (fun _ => .inr h1))
    have hs : (GOp.append src fun _ => false).spec (scfg N) (xs, N) = ((xs, N), true) := by
      simp only [GOp.spec, specInsert, scfg, List.length_map, Bool.not_false, Bool.true_or, if_true]
      rw [if_neg (by omega)]
    rw [Stat.cfg_eq, hs] at e v'
    exact ⟨h', o', e, statShows_of v'⟩
  · obtain ⟨h', o', e, f, _⟩ := (Stat.laws N).ctor (.sized src) hf trivial
    have hs : ((ssys V N).ctorS (.sized src)).2 = true := by simp [ssys, sctorS, h1]
    exact ⟨h', by rw [hs] at e; exact e, f hs⟩
  · obtain ⟨h', o', e, v', _⟩ := Stat.inv_good (good_step r hf (.push (.lit x t) fun _ => false) (by
      intro _ _ hr; cases hr))
    have hs : (GOp.push (.lit x t) fun _ => false).spec (scfg N) (xs, N) = ((xs, N), true) := by
      simp only [GOp.spec, specPush, scfg, Bool.not_false, Bool.true_or, if_true]
      rw [if_neg (show ¬ xs.length < N by omega)]
      split <;> rfl
    rw [Stat.cfg_eq, hs] at e v'
    exact ⟨h', o', e, statShows_of v'⟩
  · obtain ⟨h', o', e, v', _⟩ := Stat.inv_good (good_step r hf (.insert k src fun _ => false) ⟨hk, fun q => absurd q h3⟩)
    have hn : src.any (·.throws) = false := by
      rw [List.any_eq_false]; intro it hit; simp [h2 it hit]
    have hs : (GOp.insert k src fun _ => false).spec (scfg N) (xs, N) =
        ((xs.take k ++ src.map (·.val) ++ xs.drop k, N), false) := by
      simp only [GOp.spec, specInsert, List.length_map, hn, Bool.not_false, if_true]
      rw [if_pos h1]
    rw [Stat.cfg_eq, hs] at e v'
    exact ⟨h', o', e, statShows_of v'⟩

instance (N : Nat) (b : SBin V) (xs : List V) : Decidable ((ssys V N).selfP b xs) := by
  cases b <;> simp only [ssys] <;> infer_instance

instance (N : Nat) (u : GOp V) (xs : List V) : Decidable ((ssys V N).unP u xs) := by
  simp only [ssys]; infer_instance

instance (N : Nat) (b : SBin V) (xs ys : List V) : Decidable ((ssys V N).binP b xs ys) := by
  simp only [ssys]; infer_instance

instance (N : Nat) (c : SCtor V) : Decidable ((ssys V N).ctorP c) := by simp only [ssys]; infer_instance

instance (N : Nat) (x : SFrom) (xs : List V) : Decidable ((ssys V N).ctorFromP x xs) := by
  simp only [ssys]; infer_instance

/-- A history in the scope of `C28_static_vector_history_partial`, with capacity 4. -/
def statSample : List (WOp (GOp Nat) (SBin Nat) (SCtor Nat) SFrom) :=
  [.make 0 (.sized [lit 1, lit 2]), .un 0 (push 3), .un 0 (.insert 1 [lit 8] fun _ => false), .un 0 (push 9),
   .un 0 (.append [lit 1, lit 1, lit 1, lit 1, lit 1] fun _ => false), .make 1 (.unsized [lit 1, lit 1, lit 1, lit 1, lit 1]),
   .makeFrom 1 0 (.copy fun _ => false), .un 1 (.erase 0 3), .bin 0 1 .swap, .makeFrom 2 1 .move,
   .bin 2 0 (.move (fun _ => 0) 0), .bin 1 2 (.copy (fun k => k == 0) 7), .bin 2 2 .swap, .bin 2 2 (.copy (fun _ => true) 7),
   .drop 1]

example : PreHist (ssys Nat 4).spec (ssys Nat 4).pre (fun _ => none) statSample := by decide +kernel

example : ((runHist (ssys Nat 4).step (start Nat (Stat Nat)) statSample).map fun r =>
    ((r.1.2 0).map fun o => readFrom 4 o.cell 0 o.size, (r.1.2 2).map fun o => readFrom 4 o.cell 0 o.size, r.2)) =
    some (some (some [0]), some (some [3]),
      [false, false, false, true, true, true, false, false, false, false, false, true, false, false, false]) := by
  decide +kernel

/-- C28 fails for `append` (and `append` of a range without a size): only a source longer than
the whole capacity is rejected, so appending three elements to a vector with two of its four
slots in use writes beyond the storage. -/
theorem C28_append_violated :
    runHist (ssys Nat 4).step (start Nat (Stat Nat))
      [.make 0 (.sized [lit 1, lit 2]), .un 0 (.append [lit 3, lit 4, lit 5] fun _ => false)] = none ∧
    runHist (ssys Nat 4).step (start Nat (Stat Nat))
      [.make 0 (.sized [lit 1, lit 2]), .un 0 (.appendUnsized [lit 3, lit 4, lit 5] fun _ => false)] = none ∧
    runHist (ssys Nat 4).step (start Nat (Stat Nat))
      [.make 0 (.sized [lit 1, lit 2]), .un 0 (.resize 5 (fun _ => lit 0) fun _ => false)] = none :=
  ⟨rfl, rfl, rfl⟩

/-- The hypotheses of `C28_over_capacity`. -/
example : Fresh (⟨fun _ => none, 0⟩ : Heap Nat) ∧ sinv 4 ⟨fun _ => none, 0⟩ ⟨cells [1, 2, 3], 3⟩ [1, 2, 3] ∧
    4 < [1, 2, 3].length + [lit 1, lit 2].length ∧ [1, 2, 3].length + [lit 1].length ≤ 4 :=
  ⟨fun _ _ => rfl, ⟨rfl, rfl, by decide⟩, by decide, by decide⟩

end Verif.Containers
