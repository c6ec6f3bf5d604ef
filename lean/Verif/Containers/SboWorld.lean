import Verif.Containers.Sbo

/-!
# Programs with any number of small-buffer vectors (C29, C30)
-/

namespace Verif.Containers

open Verif Impl Lawful

variable {V : Type}

/-- Operations with two vectors. -/
inductive BBin (V : Type) where
  | move
  | swap
  /-- `left` is the value that a failed element assignment leaves behind -/
  | copy (thr : Nat → Bool) (left : V) (al : Nat → Bool)
  /-- for trivially copyable elements -/
  | copyTrivial (al : Nat → Bool)

/-- Constructors. -/
inductive BCtor (V : Type) where
  | dflt
  /-- from a range whose size is known -/
  | sized (src : List (Item V)) (al : Nat → Bool)
  /-- from a range whose size is not known -/
  | unsized (src : List (Item V)) (al : Nat → Bool)

/-- Constructors from another vector. -/
inductive BFrom where
  | copy (thr : Nat → Bool) (al : Nat → Bool)
  | move

namespace Sbo

/-- A new object (`sbo_vector.cpp` 180). -/
def blank (V : Type) (W sc : Nat) : Sbo V := ⟨emptySmall V W sc, 0, false⟩

/-- The body of a constructor that delegates to `sbo_vector()` threw: the destructor runs. -/
def fail (sc mx : Nat) (x : Out (Heap V × Sbo V)) : Made (Heap V) (Heap V × Sbo V) :=
  match x with
  | .ub => .ub
  | .ok r => .ok r
  | .exn (h, o) =>
    match dtor sc mx h o with
    | none => .ub
    | some h' => .exn h'

/-- Lines 180-198, with assign_to_empty.cpp 60-94. -/
def ctor (W sc mx : Nat) : BCtor V → Heap V → Made (Heap V) (Heap V × Sbo V)
  | .dflt, h => .ok (h, blank V W sc)
  | .sized src al, h => fail sc mx ((sbo V W sc mx).assignToEmpty h (blank V W sc) src al)
  | .unsized src al, h => fail sc mx ((sbo V W sc mx).appendUnsized h (blank V W sc) al src)

/-- The elements, read from memory. -/
def read (sc mx : Nat) (h : Heap V) (o : Sbo V) : Option (List V) :=
  match size? sc mx o with
  | none => none
  | some n => readFrom (mem sc h o).1 (mem sc h o).2 0 n

/-- `sbo_vector.cpp` 200-210. -/
def ctorFrom (W sc mx : Nat) : BFrom → Heap V → Sbo V → Made (Heap V × Sbo V) (Heap V × Sbo V × Sbo V)
  | .move, h, t =>
    match moveToEmpty W sc mx (blank V W sc) t with
    | none => .ub
    | some (o, t') => .ok (h, o, t')
  | .copy thr al, h, t =>
    match read sc mx h t with
    | none => .ub
    | some vs =>
      match fail sc mx ((sbo V W sc mx).assignToEmpty h (blank V W sc) (items vs thr) al) with
      | .ub => .ub
      | .exn h' => .exn (h', t)
      | .ok (h', o) => .ok (h', o, t)

/-- `std::swap`: a temporary, two move assignments, and the end of the temporary. -/
def swap (W sc mx : Nat) (h : Heap V) (o t : Sbo V) : Option (Heap V × Sbo V × Sbo V) :=
  match moveToEmpty W sc mx (blank V W sc) o with
  | none => none
  | some (tmp, o1) =>
    match moveAssign W sc mx h o1 t with
    | none => none
    | some (h1, o2, t1) =>
      match moveAssign W sc mx h1 t1 tmp with
      | none => none
      | some (h2, t2, tmp1) => (dtor sc mx h2 tmp1).map fun h3 => (h3, o2, t2)

/-- `std::swap` of an object with itself. -/
def selfSwap (W sc mx : Nat) (h : Heap V) (o : Sbo V) : Option (Heap V × Sbo V) :=
  match moveToEmpty W sc mx (blank V W sc) o with
  | none => none
  | some (tmp, o1) =>
    match moveAssign W sc mx h o1 tmp with
    | none => none
    | some (h2, o2, tmp1) => (dtor sc mx h2 tmp1).map fun h3 => (h3, o2)

/-- Two different vectors: `sbo_vector.cpp` 212-226. -/
def bin (W sc mx : Nat) : BBin V → Heap V → Sbo V → Sbo V → Out (Heap V × Sbo V × Sbo V)
  | .move, h, o, t =>
    match moveAssign W sc mx h o t with
    | none => .ub
    | some r => .ok r
  | .swap, h, o, t =>
    match swap W sc mx h o t with
    | none => .ub
    | some r => .ok r
  | .copy thr left al, h, o, t =>
    match read sc mx h t with
    | none => .ub
    | some vs => ((sbo V W sc mx).assign h o (items vs thr) left al).bind (fun r => .ok (r.1, r.2, t)) (fun r => (r.1, r.2, t))
  | .copyTrivial al, h, o, t =>
    match read sc mx h t with
    | none => .ub
    | some vs =>
      ((sbo V W sc mx).assignTrivial h o (items vs fun _ => false) al).bind (fun r => .ok (r.1, r.2, t)) (fun r => (r.1, r.2, t))

/-- The same vector on both sides: `sbo_vector.cpp` 213, 220-222. -/
def self (W sc mx : Nat) : BBin V → Heap V → Sbo V → Out (Heap V × Sbo V)
  | .swap, h, o =>
    match selfSwap W sc mx h o with
    | none => .ub
    | some r => .ok r
  | _, h, o => .ok (h, o)

end Sbo

/-! ### Specification: a vector is its elements and its capacity -/

/-- The constants of `sbo_vector`. -/
def bcfg (sc mx : Nat) : Cfg := ⟨sc, mx, false, true⟩

/-- Operations on one vector. Assignment of trivially copyable elements to a vector in its small
buffer may fail to allocate: then the vector is empty. -/
def bunS (sc mx : Nat) (u : GOp V) (s : SV V) : SV V × Bool :=
  match u with
  | .assignTrivial src al =>
    if s.2 = sc ∧ s.2 < src.length ∧ al 0 = true then (([], s.2), true) else u.spec (bcfg sc mx) s
  | _ => u.spec (bcfg sc mx) s

/-- What an operation requires; see `C30_failed_allocation_violated` for the last one. -/
def bunP (sc mx : Nat) (u : GOp V) (s : SV V) : Prop :=
  match u with
  | .assignTrivial src al => src.length ≤ mx ∧ (sc < s.2 → s.2 < src.length → al 0 = false)
  | _ => u.pre (bcfg sc mx) s

/-- What an operation on two vectors means. -/
def bbinS (sc mx : Nat) : BBin V → SV V → SV V → (SV V × SV V) × Bool
  | .move, _, b => ((b, ([], sc)), false)
  | .swap, a, b => ((b, a), false)
  | .copy thr left al, a, b =>
    (((bunS sc mx (.assign (items b.1 thr) left al) a).1, b), (bunS sc mx (.assign (items b.1 thr) left al) a).2)
  | .copyTrivial al, a, b =>
    (((bunS sc mx (.assignTrivial (items b.1 fun _ => false) al) a).1, b),
      (bunS sc mx (.assignTrivial (items b.1 fun _ => false) al) a).2)

/-- What the caller has to provide for it. -/
def bbinP (sc : Nat) : BBin V → SV V → SV V → Prop
  | .copyTrivial al, a, b => sc < a.2 → a.2 < b.1.length → al 0 = false
  | _, _, _ => True

/-- What a construction means. -/
def bctorS (sc mx : Nat) : BCtor V → SV V × Bool
  | .dflt => (([], sc), false)
  | .sized src al => bunS sc mx (.assignTrivial src al) ([], sc)
  | .unsized src al => bunS sc mx (.appendUnsized src al) ([], sc)

/-- What the caller has to provide for it. -/
def bctorP (sc mx : Nat) : BCtor V → Prop
  | .dflt => True
  | .sized src _ => src.length ≤ mx
  | .unsized src al => bunP sc mx (.appendUnsized src al) ([], sc)

/-- What a construction from another vector means. -/
def bfromS (sc mx : Nat) : BFrom → SV V → (SV V × SV V) × Bool
  | .move, a => ((a, ([], sc)), false)
  | .copy thr al, a =>
    (((bunS sc mx (.assignTrivial (items a.1 thr) al) ([], sc)).1, a), (bunS sc mx (.assignTrivial (items a.1 thr) al) ([], sc)).2)

/-- `sbo_vector` with its specification. -/
def bsys (V : Type) (W sc mx : Nat) : Sys V (Sbo V) (SV V) (GOp V) (BBin V) (BCtor V) BFrom where
  own := (sbo V W sc mx).own
  un u h o := (sbo V W sc mx).step sc h o u
  bin := Sbo.bin W sc mx
  self := Sbo.self W sc mx
  ctor := Sbo.ctor W sc mx
  ctorFrom := Sbo.ctorFrom W sc mx
  dtor := Sbo.dtor sc mx
  unS := bunS sc mx
  binS := bbinS sc mx
  selfS _ a := (a, false)
  ctorS := bctorS sc mx
  ctorFromS := bfromS sc mx
  unP := bunP sc mx
  binP := bbinP sc
  selfP _ _ := True
  ctorP := bctorP sc mx
  ctorFromP _ _ := True

instance (sc mx : Nat) (u : GOp V) (s : SV V) : Decidable (bunP sc mx u s) := by
  unfold bunP; split <;> infer_instance

instance (W sc mx : Nat) (u : GOp V) (a : SV V) : Decidable ((bsys V W sc mx).unP u a) := by
  show Decidable (bunP sc mx u a); infer_instance

instance (W sc mx : Nat) (b : BBin V) (a a' : SV V) : Decidable ((bsys V W sc mx).binP b a a') := by
  show Decidable (bbinP sc b a a'); cases b <;> simp only [bbinP] <;> infer_instance

instance (W sc mx : Nat) (b : BBin V) (a : SV V) : Decidable ((bsys V W sc mx).selfP b a) := isTrue trivial

instance (W sc mx : Nat) (c : BCtor V) : Decidable ((bsys V W sc mx).ctorP c) := by
  show Decidable (bctorP sc mx c); cases c <;> simp only [bctorP] <;> infer_instance

instance (W sc mx : Nat) (x : BFrom) (a : SV V) : Decidable ((bsys V W sc mx).ctorFromP x a) := isTrue trivial

namespace Sbo

variable {W sc mx : Nat} {hp : Params W sc mx}

/-- What a small-buffer vector is in memory. -/
def binv (hp : Params W sc mx) (h : Heap V) (o : Sbo V) (s : SV V) : Prop := (lawful hp).Rep h o s.1 s.2

theorem cfg_eq : (lawful (V := V) hp).cfg = bcfg sc mx := rfl

theorem inv_mem {h : Heap V} {o : Sbo V} {s : SV V} (v : binv hp h o s) : mem sc h o = (s.2, cells s.1) := v.mem

theorem inv_size {h : Heap V} {o : Sbo V} {s : SV V} (v : binv hp h o s) : size? sc mx o = some s.1.length := by
  have h1 : (size? sc mx o).getD 0 = s.1.length := v.1.2.2
  rcases v.1.1 with ⟨c, n, rfl, hn⟩ | ⟨b, cap, n, B, rfl, hn, _⟩
  · rw [size_small hp hn] at h1 ⊢; rw [← h1]; rfl
  · rw [size_large hp hn] at h1 ⊢; rw [← h1]; rfl

theorem inv_range {h : Heap V} {o : Sbo V} {s : SV V} (v : binv hp h o s) : s.1.length ≤ s.2 ∧ sc ≤ s.2 ∧ s.2 ≤ mx :=
  ⟨v.2, v.view.range⟩

theorem inv_read {h : Heap V} {o : Sbo V} {s : SV V} (v : binv hp h o s) : read sc mx h o = some s.1 := by
  simp only [read, inv_size v, inv_mem v]
  rw [readFrom_eq _ _ (inv_range v).1 _ _ (by omega)]; rfl

theorem inv_owned {h : Heap V} {o : Sbo V} {s : SV V} (v : binv hp h o s) {b : Nat} (hb : (sbo V W sc mx).own o b) :
    h.blk b ≠ none := (lawful hp).wf_owned v.1.1 hb

theorem inv_keep {h h' : Heap V} {o : Sbo V} {s : SV V} (v : binv hp h o s)
    (hk : ∀ b, (sbo V W sc mx).own o b → h'.blk b = h.blk b) : binv hp h' o s := by
  have := (lawful hp).wf_keep v.1.1 hk
  exact ⟨⟨this.1, by rw [this.2]; exact v.1.2.1, v.1.2.2⟩, v.2⟩

theorem blank_inv (h : Heap V) : binv hp h (blank V W sc) ([], sc) := by
  refine rep_of (n := 0) ⟨?_, rfl, ?_⟩ cells_nil.symm rfl (Nat.zero_le _)
  · rw [blank, emptySmall_eq hp]; exact .inl ⟨_, 0, rfl, Nat.zero_le _⟩
  · show (size? sc mx (blank V W sc)).getD 0 = 0
    rw [blank, emptySmall_eq hp, size_small hp (Nat.zero_le _)]; rfl

theorem blank_own (b : Nat) : ¬ (sbo V W sc mx).own (blank V W sc) b := by simp [Impl.own, sbo, ptr, blank, emptySmall]

theorem blank_clean : isClean sc (blank V W sc) = true := isClean_none

theorem inv_destroy {h : Heap V} {o : Sbo V} {s : SV V} (v : binv hp h o s) :
    ∃ h1 o1, destroy' sc mx h o = some (h1, o1) ∧ isClean sc o1 = true ∧
      Frame ((sbo V W sc mx).own o) h (fun _ => False) h1 :=
  destroy_ok hp v.1.1 (by rw [inv_mem v]; rfl) v.1.2.2 (by rw [inv_mem v]; exact v.2)

theorem inv_dtor {h : Heap V} {o : Sbo V} {s : SV V} (v : binv hp h o s) :
    ∃ h1, dtor sc mx h o = some h1 ∧ Frame ((sbo V W sc mx).own o) h (fun _ => False) h1 := by
  obtain ⟨h1, o1, e1, e2, fr⟩ := inv_destroy v
  exact ⟨h1, by simp only [dtor, e1, e2, if_true], fr⟩

/-- Moving into an object without elements. -/
theorem moveToEmpty_ok {h : Heap V} {o t : Sbo V} {s : SV V} (hc : isClean sc o = true) (v : binv hp h t s) :
    ∃ o', moveToEmpty W sc mx o t = some (o', blank V W sc) ∧ binv hp h o' s ∧ ptr o' = ptr t := by
  have hs := inv_size v
  rcases v.1.1 with ⟨c, m, rfl, hm'⟩ | ⟨b, cap, m, B, rfl, hm', hb, hcap, h4, h5⟩
  · have hm := inv_mem v
    have h1 : sc = s.2 := congrArg Prod.fst hm
    have h2 : c = cells s.1 := congrArg Prod.snd hm
    have hl := (inv_range v).1
    subst h2
    have hrel := relocTo_eq sc sc s.1 (cells s.1) (fun _ => none) 0 0 (by omega) (by omega)
      (by intro j hj; simp [cells, hj]) (fun _ _ _ => rfl)
    rw [written_none, show cleared (cells s.1) 0 s.1.length = fun _ => none by
      have := cleared_cells s.1 0 (by omega); simpa [cells_nil] using this] at hrel
    refine ⟨⟨.small (cells s.1) (splitSize W sc m).1, (splitSize W sc m).2, false⟩, ?_, v, rfl⟩
    simp only [moveToEmpty, hc, Bool.not_true, Bool.false_eq_true, if_false, hs, hrel]
    rw [if_pos isClean_none]; rfl
  · refine ⟨⟨.large b cap (splitSize W mx m).1, (splitSize W mx m).2, true⟩, ?_, v, rfl⟩
    simp only [moveToEmpty, hc, Bool.not_true, Bool.false_eq_true, if_false]; rfl

/-- Move assignment. -/
theorem moveAssign_ok {h : Heap V} {o t : Sbo V} {a s : SV V} (v : binv hp h o a) (vt : binv hp h t s)
    (hap : ∀ b, (sbo V W sc mx).own o b → ¬ (sbo V W sc mx).own t b) :
    ∃ h' o', moveAssign W sc mx h o t = some (h', o', blank V W sc) ∧ binv hp h' o' s ∧ ptr o' = ptr t ∧
      Frame ((sbo V W sc mx).own o) h (fun _ => False) h' := by
  obtain ⟨h1, o1, e1, e2, fr⟩ := inv_destroy v
  have vt1 := inv_keep vt (h' := h1) (fun b hb => fr.keep b (fun q => hap b q hb) id)
  obtain ⟨o', e3, v', ep⟩ := moveToEmpty_ok e2 vt1
  exact ⟨h1, o', by simp only [moveAssign, e1, e3, Option.map_some], v', ep, fr⟩

theorem own_of_ptr {o t : Sbo V} (e : ptr o = ptr t) (b : Nat) : (sbo V W sc mx).own o b ↔ (sbo V W sc mx).own t b := by
  show ptr o = some b ↔ ptr t = some b
  rw [e]

/-- An operation of `Generic.lean`. -/
theorem good_inv {h : Heap V} {o : Sbo V} {x : Out (Heap V × Sbo V)} {s : SV V × Bool} (g : (lawful hp).Good h o x s) :
    ∃ h' o', x = Out.of s.2 (h', o') ∧ binv hp h' o' s.1 ∧ Frame ((sbo V W sc mx).own o) h ((sbo V W sc mx).own o') h' := by
  obtain ⟨h', o', e, r, f, _⟩ := g
  exact ⟨h', o', e, r, f⟩

/-- `assign_to_empty`, with an allocation that may fail while the vector is small. -/
theorem toEmpty_ok {h : Heap V} (hf : Fresh h) {o : Sbo V} {cap : Nat} (v : binv hp h o ([], cap)) (src : List (Item V))
    (al : Nat → Bool) (hl : src.length ≤ mx) (hpre : sc < cap → cap < src.length → al 0 = false) :
    ∃ h' o', (sbo V W sc mx).assignToEmpty h o src al = Out.of (bunS sc mx (.assignTrivial src al) ([], cap)).2 (h', o') ∧
      binv hp h' o' (bunS sc mx (.assignTrivial src al) ([], cap)).1 ∧
      Frame ((sbo V W sc mx).own o) h ((sbo V W sc mx).own o') h' := by
  by_cases hc : cap = sc ∧ cap < src.length ∧ al 0 = true
  · obtain ⟨h1, h2, h3⟩ := hc
    subst h1
    have e : bunS cap mx (.assignTrivial src al) (([] : List V), cap) = (([], cap), true) := by
      simp only [bunS, true_and]; rw [if_pos ⟨h2, h3⟩]
    rw [e]
    refine ⟨h, o, ?_, v, Frame.refl _ _⟩
    have hs := inv_size v
    have hcap : (sbo V W cap mx).capacity o = some cap := v.view.cap
    have hsz : (sbo V W cap mx).size o = 0 := v.1.2.2
    have hrep : (sbo V W cap mx).replaceEmpty h o src.length (al 0) = .exn (h, o) := by
      show replaceEmpty W cap mx h o src.length (al 0) = _
      have hm := inv_mem v
      rcases v.1.1 with ⟨c, n, rfl, hn⟩ | ⟨b, cap', n, B, rfl, hn, hb, hcp, h4, h5⟩
      · have hcl : c = fun _ => none := by
          have : c = cells [] := congrArg Prod.snd hm
          rw [this, cells_nil]
        subst hcl
        simp only [replaceEmpty, hs, List.length_nil, deallocate, isClean_none, Bool.not_true, Bool.false_eq_true, if_false, h3,
          if_true]
        rw [if_neg (by simp; omega), if_neg (by omega)]
      · rw [mem_large hb] at hm
        have : B.cap = cap := congrArg Prod.fst hm
        omega
    simp only [Impl.assignToEmpty, hsz, hcap, hrep, h2, if_true]
    rw [if_neg (by simp), if_pos (show (sbo V W cap mx).reservable = true from rfl),
      if_neg (show ¬ (sbo V W cap mx).mx < src.length from Nat.not_lt.2 hl)]
    rfl
  · have e : bunS sc mx (.assignTrivial src al) (([] : List V), cap) = (GOp.assignTrivial src al).spec (bcfg sc mx) ([], cap) := by
      simp only [bunS]; rw [if_neg hc]
    rw [e]
    refine good_inv (good_assignToEmpty v hf src al fun _ => ⟨hl, fun h1 => ?_⟩)
    have hr : sc ≤ cap := (inv_range v).2.1
    rcases Nat.lt_or_ge sc cap with h2 | h2
    · exact hpre h2 h1
    · cases ha : al 0
      · rfl
      · exact absurd ⟨by omega, h1, ha⟩ hc

/-- An operation on one vector. -/
theorem un_ok {h : Heap V} (hf : Fresh h) {o : Sbo V} {s : SV V} (v : binv hp h o s) (u : GOp V) (hu : bunP sc mx u s) :
    ∃ h' o', (sbo V W sc mx).step sc h o u = Out.of (bunS sc mx u s).2 (h', o') ∧ binv hp h' o' (bunS sc mx u s).1 ∧
      Frame ((sbo V W sc mx).own o) h ((sbo V W sc mx).own o') h' := by
  cases u with
  | assignTrivial src al =>
    obtain ⟨h1, o1, e1, r1, f1, _⟩ := good_clear v
    obtain ⟨h2, o2, e2, v2, f2⟩ := toEmpty_ok (f1.fresh hf) (hp := hp) (cap := s.2) r1 src al hu.1 hu.2
    have e : bunS sc mx (.assignTrivial src al) s = bunS sc mx (.assignTrivial src al) ([], s.2) := rfl
    rw [e]
    refine ⟨h2, o2, ?_, v2, f1.trans f2⟩
    show (sbo V W sc mx).assignTrivial h o src al = _
    simp only [Impl.assignTrivial, e1, Out.of_false]
    exact e2
  | _ => exact good_inv (good_step v hf _ hu)

/-- Construction from a range. -/
theorem make_ok {h : Heap V} (hf : Fresh h) {x : Out (Heap V × Sbo V)} {s : SV V × Bool}
    (g : ∃ h' o', x = Out.of s.2 (h', o') ∧ binv hp h' o' s.1 ∧
      Frame ((sbo V W sc mx).own (blank V W sc)) h ((sbo V W sc mx).own o') h') :
    ∃ h' o, fail sc mx x = Made.of s.2 h' (h', o) ∧ (s.2 = true → Frame (fun _ => False) h (fun _ => False) h') ∧
      (s.2 = false → binv hp h' o s.1 ∧ Frame (fun _ => False) h ((sbo V W sc mx).own o) h') := by
  obtain ⟨h', o', e, v, f⟩ := g
  have f' : Frame (fun _ => False) h ((sbo V W sc mx).own o') h' :=
    f.congr (fun b => ⟨fun q => (blank_own b q).elim, False.elim⟩) (fun b => Iff.rfl)
  cases hs : s.2
  · exact ⟨h', o', by rw [e, hs]; rfl, fun q => (by cases q), fun _ => ⟨v, f'⟩⟩
  · obtain ⟨h2, e2, f2⟩ := inv_dtor v
    refine ⟨h2, o', ?_, fun _ => f'.trans f2, fun q => (by cases q)⟩
    rw [e, hs]
    simp only [Out.of_true, fail, e2, Made.of_true]

/-- The other operand of an assignment is not touched. -/
theorem copy_ok {h : Heap V} {o t : Sbo V} {b : SV V} (vt : binv hp h t b)
    (hap : ∀ c, (sbo V W sc mx).own o c → ¬ (sbo V W sc mx).own t c) {x : Out (Heap V × Sbo V)} {s : SV V × Bool}
    (g : ∃ h' o', x = Out.of s.2 (h', o') ∧ binv hp h' o' s.1 ∧ Frame ((sbo V W sc mx).own o) h ((sbo V W sc mx).own o') h') :
    ∃ h' o' t', x.bind (fun r => .ok (r.1, r.2, t)) (fun r => (r.1, r.2, t)) = Out.of s.2 (h', o', t') ∧
      binv hp h' o' s.1 ∧ binv hp h' t' b ∧ (∀ b, (sbo V W sc mx).own o' b → ¬ (sbo V W sc mx).own t' b) ∧
      Frame (fun b => (sbo V W sc mx).own o b ∨ (sbo V W sc mx).own t b) h
        (fun b => (sbo V W sc mx).own o' b ∨ (sbo V W sc mx).own t' b) h' := by
  obtain ⟨h', o', e, v', fr⟩ := g
  refine ⟨h', o', t, ?_, v', ?_, ?_, fr.more _⟩
  · subst e; cases s.2 <;> rfl
  · exact inv_keep vt (fun c hc => fr.other (fun q => hap c q hc) (inv_owned vt hc))
  · intro c h1 h2
    exact inv_owned vt h2 (fr.new c (fun q => hap c q h2) h1)

/-- Every operation of `sbo_vector` by itself. -/
theorem laws (hp : Params W sc mx) : (bsys V W sc mx).Laws (binv hp) where
  owned := fun v hb => inv_owned v hb
  keep := fun v hk => inv_keep v hk
  un := fun u hf v hu => un_ok hf v u hu
  bin := by
    intro h o t a b x hf v vt hap hx
    have hap : ∀ c, (sbo V W sc mx).own o c → ¬ (sbo V W sc mx).own t c := hap
    cases x with
    | move =>
      obtain ⟨h', o', e, v', ep, fr⟩ := moveAssign_ok v vt hap
      refine ⟨h', o', blank V W sc, ?_, v', blank_inv h', fun c _ => blank_own c, ?_⟩
      · show (match moveAssign W sc mx h o t with | none => Out.ub | some r => .ok r) = _
        rw [e]; rfl
      · refine (fr.more ((sbo V W sc mx).own t)).congr (fun c => Iff.rfl) (fun c => ?_)
        show _ ↔ (sbo V W sc mx).own o' c ∨ (sbo V W sc mx).own (blank V W sc) c
        rw [own_of_ptr ep c]; simp [blank_own]
    | swap =>
      obtain ⟨tmp, e1, vtmp, p1⟩ := moveToEmpty_ok (blank_clean (V := V) (W := W) (sc := sc)) v
      obtain ⟨h1, o2, e2, v2, p2, f2⟩ := moveAssign_ok (blank_inv (hp := hp) h) vt (fun c q => (blank_own c q).elim)
      have f2' : Frame (fun _ => False) h (fun _ => False) h1 :=
        f2.congr (fun b => ⟨fun q => (blank_own b q).elim, False.elim⟩) (fun b => Iff.rfl)
      have vtmp1 := inv_keep vtmp (h' := h1) (fun c _ => f2'.keep c id id)
      obtain ⟨h2, t2, e3, v3, p3, f3⟩ := moveAssign_ok (blank_inv (hp := hp) h1) vtmp1 (fun c q => (blank_own c q).elim)
      have f3' : Frame (fun _ => False) h1 (fun _ => False) h2 :=
        f3.congr (fun b => ⟨fun q => (blank_own b q).elim, False.elim⟩) (fun b => Iff.rfl)
      obtain ⟨h3, e4, f4⟩ := inv_dtor (blank_inv (hp := hp) h2)
      have f4' : Frame (fun _ => False) h2 (fun _ => False) h3 :=
        f4.congr (fun b => ⟨fun q => (blank_own b q).elim, False.elim⟩) (fun b => Iff.rfl)
      have o1 : ∀ c, (sbo V W sc mx).own o2 c ↔ (sbo V W sc mx).own t c := own_of_ptr p2
      have o2' : ∀ c, (sbo V W sc mx).own t2 c ↔ (sbo V W sc mx).own o c := own_of_ptr (p3.trans p1)
      refine ⟨h3, o2, t2, ?_, ?_, ?_, ?_, ?_⟩
      · show (match swap W sc mx h o t with | none => Out.ub | some r => .ok r) = _
        simp only [swap, e1, e2, e3, e4, Option.map_some]; rfl
      · exact inv_keep v2 (fun c _ => (f3'.trans f4').keep c id id)
      · exact inv_keep v3 (fun c _ => f4'.keep c id id)
      · intro c q1 q2
        exact hap c ((o2' c).1 q2) ((o1 c).1 q1)
      · refine (((f2'.trans f3').trans f4').more (fun c => (sbo V W sc mx).own o c ∨ (sbo V W sc mx).own t c)).congr
          (fun c => by simp [bsys]) (fun c => ?_)
        show _ ↔ (sbo V W sc mx).own o2 c ∨ (sbo V W sc mx).own t2 c
        rw [o1, o2']; simp [or_comm]
    | copy thr left al =>
      obtain ⟨h', o', t', e, g⟩ := copy_ok vt hap (un_ok hf v (.assign (items b.1 thr) left al) (by intro hr; cases hr))
      refine ⟨h', o', t', ?_, g⟩
      show (match read sc mx h t with | none => Out.ub | some vs => _) = _
      rw [inv_read vt]; exact e
    | copyTrivial al =>
      have hl := inv_range vt
      obtain ⟨h', o', t', e, g⟩ := copy_ok vt hap (un_ok hf v (.assignTrivial (items b.1 fun _ => false) al)
        ⟨by rw [items_length]; omega, by rw [items_length]; exact hx⟩)
      refine ⟨h', o', t', ?_, g⟩
      show (match read sc mx h t with | none => Out.ub | some vs => _) = _
      rw [inv_read vt]; exact e
  self := by
    intro h o a x hf v _
    cases x with
    | swap =>
      obtain ⟨tmp, e1, vtmp, p1⟩ := moveToEmpty_ok (blank_clean (V := V) (W := W) (sc := sc)) v
      obtain ⟨h2, t2, e3, v3, p3, f3⟩ := moveAssign_ok (blank_inv (hp := hp) h) vtmp (fun c q => (blank_own c q).elim)
      have f3' : Frame (fun _ => False) h (fun _ => False) h2 :=
        f3.congr (fun b => ⟨fun q => (blank_own b q).elim, False.elim⟩) (fun b => Iff.rfl)
      obtain ⟨h3, e4, f4⟩ := inv_dtor (blank_inv (hp := hp) h2)
      have f4' : Frame (fun _ => False) h2 (fun _ => False) h3 :=
        f4.congr (fun b => ⟨fun q => (blank_own b q).elim, False.elim⟩) (fun b => Iff.rfl)
      refine ⟨h3, t2, ?_, inv_keep v3 (fun c _ => f4'.keep c id id), ?_⟩
      · show (match selfSwap W sc mx h o with | none => Out.ub | some r => .ok r) = _
        simp only [selfSwap, e1, e3, e4, Option.map_some]; rfl
      · refine ((f3'.trans f4').more ((sbo V W sc mx).own o)).congr (fun c => by simp [bsys]) (fun c => ?_)
        show _ ↔ (sbo V W sc mx).own t2 c
        rw [own_of_ptr (p3.trans p1)]; simp
    | move => exact ⟨h, o, rfl, v, Frame.refl _ _⟩
    | copy _ _ _ => exact ⟨h, o, rfl, v, Frame.refl _ _⟩
    | copyTrivial _ => exact ⟨h, o, rfl, v, Frame.refl _ _⟩
  ctor := by
    intro h c hf hc
    cases c with
    | dflt =>
      refine ⟨h, blank V W sc, rfl, fun q => (by cases q), fun _ => ⟨blank_inv h, ?_⟩⟩
      exact frame_same (fun b => id) blank_own
    | sized src al => exact make_ok hf (toEmpty_ok hf (blank_inv h) src al hc (fun q => absurd q (Nat.lt_irrefl _)))
    | unsized src al => exact make_ok hf (good_inv (good_appendUnsized (blank_inv h) hf src al hc))
  ctorFrom := by
    intro h t a x hf vt _
    cases x with
    | move =>
      obtain ⟨o, e, v, p⟩ := moveToEmpty_ok (blank_clean (V := V) (W := W) (sc := sc)) vt
      refine ⟨h, o, blank V W sc, ?_, blank_inv h, fun q => (by cases q), fun _ => ⟨v, fun c _ => blank_own c, ?_⟩⟩
      · show (match moveToEmpty W sc mx (blank V W sc) t with | none => Made.ub | some (o, t') => .ok (h, o, t')) = _
        rw [e]; rfl
      · refine (Frame.refl ((sbo V W sc mx).own t) h).congr (fun c => Iff.rfl) (fun c => ?_)
        show _ ↔ (sbo V W sc mx).own o c ∨ (sbo V W sc mx).own (blank V W sc) c
        rw [own_of_ptr p]; simp [blank_own]
    | copy thr al =>
      have hl := inv_range vt
      obtain ⟨h', o, e, f1, f2⟩ := make_ok hf (toEmpty_ok hf (blank_inv (hp := hp) h) (items a.1 thr) al
        (by rw [items_length]; omega) (fun q => absurd q (Nat.lt_irrefl _)))
      have espec : (bsys V W sc mx).ctorFromS (.copy thr al) a =
        (((bunS sc mx (.assignTrivial (items a.1 thr) al) ([], sc)).1, a),
          (bunS sc mx (.assignTrivial (items a.1 thr) al) ([], sc)).2) := rfl
      have ec : (bsys V W sc mx).ctorFrom (.copy thr al) h t =
          (match fail sc mx ((sbo V W sc mx).assignToEmpty h (blank V W sc) (items a.1 thr) al) with
          | .ub => .ub
          | .exn h' => .exn (h', t)
          | .ok (h', o) => .ok (h', o, t)) := by
        show (match read sc mx h t with | none => Made.ub | some vs => _) = _
        rw [inv_read vt]
      rw [espec, ec, e]
      refine ⟨h', o, t, ?_, ?_, ?_, ?_⟩
      · cases (bunS sc mx (.assignTrivial (items a.1 thr) al) ([], sc)).2 <;> rfl
      · cases hb : (bunS sc mx (.assignTrivial (items a.1 thr) al) ([], sc)).2
        · exact inv_keep vt (fun c hc => (f2 hb).2.other id (inv_owned vt hc))
        · exact inv_keep vt (fun c hc => (f1 hb).other id (inv_owned vt hc))
      · intro hb
        exact ((f1 hb).more ((sbo V W sc mx).own t)).congr (fun c => by simp [bsys]) (fun c => by simp [bsys])
      · intro hb
        obtain ⟨v', fr⟩ := f2 hb
        refine ⟨v', ?_, ?_⟩
        · intro c h1 h2; exact inv_owned vt h2 (fr.new c id h1)
        · exact (fr.more ((sbo V W sc mx).own t)).congr (fun c => by simp [bsys]) (fun c => Iff.rfl)
  dtor := fun v => inv_dtor v

end Sbo

/-! ### C30 -/

/-- What can be seen of a small-buffer vector with elements `s.1` and capacity `s.2`, and that
it has a heap block, of that capacity, exactly when the capacity exceeds the small one. -/
structure SboShows (sc mx : Nat) (h : Heap V) (o : Sbo V) (s : SV V) : Prop where
  size : Sbo.size? sc mx o = some s.1.length
  cap : Sbo.capacity sc mx o = some s.2
  fits : s.1.length ≤ s.2 ∧ sc ≤ s.2 ∧ s.2 ≤ mx
  elem : ∀ k (hk : k < s.1.length), readCell (Sbo.mem sc h o).1 (Sbo.mem sc h o).2 k = some s.1[k]
  flag : o.isLarge = decide (sc < s.2)
  small : s.2 = sc → Sbo.ptr o = none
  large : sc < s.2 → ∃ b, Sbo.ptr o = some b ∧ ∃ B, h.blk b = some B ∧ B.cap = s.2

theorem sboShows_of {W sc mx : Nat} {hp : Sbo.Params W sc mx} {h : Heap V} {o : Sbo V} {s : SV V} (v : Sbo.binv hp h o s) :
    SboShows sc mx h o s := by
  have hr := Sbo.inv_range v
  have hm := Sbo.inv_mem v
  have he : ∀ k (hk : k < s.1.length), readCell (Sbo.mem sc h o).1 (Sbo.mem sc h o).2 k = some s.1[k] := by
    intro k hk
    simp only [hm, readCell, cells]
    rw [if_pos (by omega), List.getElem?_eq_getElem hk]
  have hs := Sbo.inv_size v
  have hc : Sbo.capacity sc mx o = some s.2 := v.view.cap
  rcases v.1.1 with ⟨c, n, rfl, hn⟩ | ⟨b, cap, n, B, rfl, hn, hb, hcap, h4, h5⟩
  · have : sc = s.2 := congrArg Prod.fst hm
    exact ⟨hs, hc, hr, he, by simp [this], fun _ => rfl, fun q => by omega⟩
  · rw [Sbo.mem_large hb] at hm
    have : B.cap = s.2 := congrArg Prod.fst hm
    refine ⟨hs, hc, hr, he, ?_, fun q => by omega, fun _ => ⟨b, rfl, B, hb, this⟩⟩
    simp only [decide_eq_true (show sc < s.2 by omega)]

/-- C30: every history of a program with any number of `sbo_vector`s (constructors, copies,
moves, swaps, assignments, `push_back`, `append`, `insert`, `erase`, `resize`, `reserve`,
`shrink_to_fit`, ..., destruction), with any element throwing and allocations failing, never
goes wrong; throws exactly when the specification on sequences says so; leaves every vector with
exactly the specified elements and capacity, in the heap exactly when that capacity exceeds the
small one; and every block in the heap belongs to exactly one vector.

Partial: besides the calls that are excluded for every vector (see `pushPre`), the allocation
of an assignment of trivially copyable elements to a large vector must succeed; see
`C30_failed_allocation_violated`. -/
theorem C30_sbo_vector_history_partial {W sc mx : Nat} (hp : Sbo.Params W sc mx)
    (ops : List (WOp (GOp V) (BBin V) (BCtor V) BFrom))
    (hops : PreHist (bsys V W sc mx).spec (bsys V W sc mx).pre (fun _ => none) ops) :
    ∃ w, runHist (bsys V W sc mx).step (start V (Sbo V)) ops =
        some (w, (specHist (bsys V W sc mx).spec (fun _ => none) ops).2) ∧
      (∀ i, match (specHist (bsys V W sc mx).spec (fun _ => none) ops).1 i with
        | none => w.2 i = none
        | some s => ∃ o, w.2 i = some o ∧ SboShows sc mx w.1 o s) ∧
      (∀ b, w.1.blk b ≠ none → ∃ i o, w.2 i = some o ∧ Sbo.ptr o = some b) ∧
      ∀ i j o t b, w.2 i = some o → w.2 j = some t → Sbo.ptr o = some b → Sbo.ptr t = some b → i = j := by
  obtain ⟨w, h1, R⟩ := Sys.world_refines (Sbo.laws hp) ops hops
  refine ⟨w, h1, fun i => ?_, R.noLeak, fun i j o t b h2 h3 h4 h5 => ?_⟩
  · cases hs : (specHist (bsys V W sc mx).spec (fun _ => none) ops).1 i with
    | none => exact R.absent hs
    | some a =>
      obtain ⟨o, ho, v⟩ := R.obj hs
      exact ⟨o, ho, sboShows_of v⟩
  · refine Classical.byContradiction fun hij => ?_
    exact R.apart i j o t h2 h3 hij b h4 h5

/-- A vector of at most 1000 elements with a small buffer of three. -/
theorem params3 : Sbo.Params 64 3 1000 :=
  ⟨by decide, ⟨by decide, by decide, by decide +kernel⟩, ⟨by decide, by decide, by decide +kernel⟩⟩

/-- A history in the scope of `C30_sbo_vector_history_partial`: both representations, growth from
one to the other, an element that throws, an allocation that fails, moves and swaps between
representations, and shrinking back. -/
def sboSample : List (WOp (GOp Nat) (BBin Nat) (BCtor Nat) BFrom) :=
  [.make 0 (.sized [lit 1, lit 2] fun _ => false), .un 0 (push 3), .make 1 (.unsized [lit 9] fun _ => false),
   .bin 0 1 .swap, .un 1 (.push (.lit 4 false) fun _ => true), .un 1 (push 4), .bin 0 1 .swap, .makeFrom 2 0 .move,
   .un 2 (.insert 1 [lit 7, ⟨8, true⟩] fun _ => false), .makeFrom 3 2 (.copy (fun _ => false) fun _ => false),
   .bin 0 3 .move, .un 2 (.erase 0 2), .un 2 (.shrink fun _ => false), .make 4 (.sized [lit 1, lit 1, lit 1, ⟨1, true⟩] fun _ => false),
   .bin 2 2 .swap, .bin 3 2 (.copyTrivial fun _ => true), .drop 1]

example : PreHist (bsys Nat 64 3 1000).spec (bsys Nat 64 3 1000).pre (fun _ => none) sboSample := by decide +kernel

example : ((runHist (bsys Nat 64 3 1000).step (start Nat (Sbo Nat)) sboSample).map fun r =>
    ([0, 2, 3].map fun i => (r.1.2 i).map fun o => (Sbo.read 3 1000 r.1.1 o, o.isLarge), r.2)) =
    some ([some (some [1, 2, 3, 4], true), some (some [3, 4], false), some (some [3, 4], false)],
      [false, false, false, false, true, false, false, false, true, false, false, false, false, true, false, false, false]) := by
  rfl

/-- C30 fails when the allocation of an assignment of trivially copyable elements fails: the old
block has been released and the vector still refers to it, so its destructor releases it a
second time. -/
theorem C30_failed_allocation_violated :
    runHist (bsys Nat 64 3 1000).step (start Nat (Sbo Nat))
      [.make 0 (.sized [lit 1, lit 2, lit 3, lit 4] fun _ => false),
       .un 0 (.assignTrivial [lit 1, lit 2, lit 3, lit 4, lit 5] fun _ => true), .drop 0] = none ∧
    (runHist (bsys Nat 64 3 1000).step (start Nat (Sbo Nat))
      [.make 0 (.sized [lit 1, lit 2, lit 3, lit 4] fun _ => false),
       .un 0 (.assignTrivial [lit 1, lit 2, lit 3, lit 4, lit 5] fun _ => true)]).map (·.2) = some [false, true] := by
  constructor <;> decide +kernel

/-- C30: `replace_empty_allocation(n)` of an empty vector, for an `n` that fits into the object: the vector has its (no) elements inside again, and the block that it had is released. -/
theorem C30_replace_empty_small {W sc mx : Nat} (hp : Sbo.Params W sc mx) {h : Heap V} {o : Sbo V} {cap n : Nat} (v : Sbo.binv hp h o ([], cap)) (hn : n ≤ sc) (fails : Bool) :
    ∃ h' o', Sbo.replaceEmpty W sc mx h o n fails = .ok (h', o') ∧ Sbo.binv hp h' o' ([], sc) ∧ Sbo.ptr o' = none ∧
      ∀ b, h'.blk b = if Sbo.ptr o = some b then none else h.blk b := by
  have hs := Sbo.inv_size v
  have hlt := hp.lt
  have hb' := Sbo.blank_inv (hp := hp) (V := V)
  have hbs : Sbo.size? sc mx (Sbo.blank V W sc) = some 0 := Sbo.inv_size (hb' h)
  have key : ∀ h1, Sbo.deallocate sc mx h o = some h1 → o.last = 0 → Sbo.isClean sc o = true →
      Sbo.replaceEmpty W sc mx h o n fails = .ok (h1, Sbo.blank V W sc) := by
    intro h1 e1 e2 e3
    have e4 : (⟨Sbo.emptySmall V W sc, o.last, false⟩ : Sbo V) = Sbo.blank V W sc := by rw [e2]; rfl
    simp only [Sbo.replaceEmpty, e1, e3, e4, Bool.not_true, Bool.false_eq_true, if_false, hbs, if_true, if_pos hn]
    rw [if_neg (by rw [hs]; simp; omega)]
  have hm := Sbo.inv_mem v
  rcases v.1.1 with ⟨c, m, rfl, hm'⟩ | ⟨b, cap', m, B, rfl, hm', hb, hcap, h4, h5⟩
  · rw [Sbo.size_small hp hm'] at hs
    cases hs
    have hc : c = cells [] := congrArg Prod.snd hm
    refine ⟨h, _, key h rfl ?_ ?_, hb' h, rfl, fun b => ?_⟩
    · show (splitSize W sc 0).2 = 0
      rw [Sbo.split_zero hp.small]
    · rw [hc, cells_nil]; exact Sbo.isClean_none
    · simp [Sbo.ptr]
  · rw [Sbo.size_large hp hm'] at hs
    cases hs
    rw [Sbo.mem_large hb] at hm
    have hc : B.cell = cells [] := congrArg Prod.snd hm
    refine ⟨_, _, key _ (by simp only [Sbo.deallocate]; rw [if_pos (And.intro h4 h5)]; exact free_eq hb hcap fun k _ => by rw [hc, cells_nil]) ?_ rfl, hb' _, rfl, fun b' => ?_⟩
    · show (splitSize W mx 0).2 = 0
      rw [Sbo.split_zero hp.large]
    · show upd h.blk b none b' = _
      simp only [upd, Sbo.ptr, Option.some.injEq, eq_comm]

/-- A large vector without elements: replacing its allocation by one for two elements releases the block. -/
example : Sbo.binv params3 (⟨upd (fun _ => none) 0 (some ⟨8, fun _ => none⟩), 1⟩ : Heap Nat) ⟨.large 0 8 (splitSize 64 1000 0).1, (splitSize 64 1000 0).2, true⟩ ([], 8) ∧ 2 ≤ 3 :=
  ⟨rep_of (n := 0) ⟨.inr ⟨0, 8, 0, _, rfl, by decide, rfl, rfl, by decide, by decide⟩, rfl, by decide +kernel⟩ cells_nil.symm rfl (by decide), by decide⟩

theorem destroyRange_keeps {cap : Nat} {j : Nat} : ∀ {n : Nat} {m m' : Cells V} {k : Nat}, k + n ≤ j → destroyRange cap m k n = some m' → m' j = m j
  | 0, m, m', k, _, h => by cases h; rfl
  | n + 1, m, m', k, hj, h => by
    rw [destroyRange] at h
    cases hd : destroy cap m k with
    | none => rw [hd] at h; cases h
    | some m1 =>
      rw [hd, Option.bind_some] at h
      rw [destroyRange_keeps (show k + 1 + n ≤ j by omega) h]
      rw [destroy] at hd
      split at hd
      · cases hd; exact if_neg (by omega)
      · cases hd

/-- An element in the object beyond those that `size()` counts would never be destroyed: ending the life of the object, assigning to it by move, or putting another
member into the union is undefined then. So in every history of C30 that ends (C30_sbo_vector_history_partial says that they all do) no element is left behind. -/
theorem C30_element_left_behind {W sc mx : Nat} {c : Cells V} {f : List Nat} {l n k : Nat} {v : V} (hs : Sbo.size? sc mx (⟨.small c f, l, false⟩ : Sbo V) = some n) (hn : n ≤ k)
    (hk : k < sc) (hc : c k = some v) (h : Heap V) (t : Sbo V) :
    Sbo.dtor sc mx h ⟨.small c f, l, false⟩ = none ∧ Sbo.moveAssign W sc mx h ⟨.small c f, l, false⟩ t = none ∧
      Sbo.moveToEmpty W sc mx ⟨.small c f, l, false⟩ t = none := by
  have dirty : ∀ c' : Cells V, c' k = some v → Sbo.isClean sc (⟨.small c' f, l, false⟩ : Sbo V) = false := by
    intro c' h'
    apply decide_eq_false
    intro hall
    have := hall k hk
    rw [h'] at this
    cases this
  have gone : ∀ r, Sbo.destroy' sc mx h ⟨.small c f, l, false⟩ = some r → Sbo.isClean sc r.2 = false := by
    intro r hr
    simp only [Sbo.destroy', Sbo.destroyAll, hs, Sbo.mem] at hr
    cases hd : destroyRange sc c 0 n with
    | none => rw [hd] at hr; cases hr
    | some c' =>
      rw [hd] at hr
      simp only [Option.map_some, Sbo.put, Sbo.deallocate] at hr
      cases hr
      exact dirty c' ((destroyRange_keeps (by omega) hd).trans hc)
  refine ⟨?_, ?_, ?_⟩
  · rw [Sbo.dtor]
    cases hr : Sbo.destroy' sc mx h ⟨.small c f, l, false⟩ with
    | none => rfl
    | some r => simp only [gone r hr, Bool.false_eq_true, if_false]
  · rw [Sbo.moveAssign]
    cases hr : Sbo.destroy' sc mx h ⟨.small c f, l, false⟩ with
    | none => rfl
    | some r => simp only [Sbo.moveToEmpty, gone r hr, Bool.not_false, if_true, Option.map_none]
  · simp only [Sbo.moveToEmpty, dirty c hc, Bool.not_false, if_true]

/-- One element counted, another one in the second slot. -/
example : Sbo.size? 3 1000 (⟨.small (fun k => [7, 8][k]?) [], 1, false⟩ : Sbo Nat) = some 1 ∧ (fun k => [7, 8][k]?) 1 = some 8 := by decide +kernel

/-- C29: setting the size of a vector changes nothing else: the flag, the elements and the
storage stay, and the new size is read back. -/
theorem C29_set_size {W sc mx : Nat} (hp : Sbo.Params W sc mx) {h : Heap V} {o : Sbo V} {s : SV V} (v : Sbo.binv hp h o s)
    {n : Nat} (hn : n ≤ s.2) :
    ∃ o', Sbo.setSize W sc mx o n = some o' ∧ Sbo.size? sc mx o' = some n ∧ o'.isLarge = o.isLarge ∧
      Sbo.mem sc h o' = Sbo.mem sc h o ∧ Sbo.capacity sc mx o' = Sbo.capacity sc mx o ∧ Sbo.ptr o' = Sbo.ptr o ∧
      o'.last < 128 := by
  have hm := Sbo.inv_mem v
  have hr := Sbo.inv_range v
  rcases v.1.1 with ⟨c, m, rfl, hm'⟩ | ⟨b, cap, m, B, rfl, hm', hb, hcap, h4, h5⟩
  · have h1 : sc = s.2 := congrArg Prod.fst hm
    have hn' : n ≤ sc := by omega
    refine ⟨⟨.small c (splitSize W sc n).1, (splitSize W sc n).2, false⟩, ?_, Sbo.size_small hp hn', rfl, rfl, rfl, rfl,
      splitSize_last⟩
    simp only [Sbo.setSize, if_pos hn', Sbo.size_small hp hn', if_true]
  · have hn' : n ≤ mx := by omega
    refine ⟨⟨.large b cap (splitSize W mx n).1, (splitSize W mx n).2, true⟩, ?_, Sbo.size_large hp hn', rfl, rfl, rfl, rfl,
      splitSize_last⟩
    simp only [Sbo.setSize, if_pos hn', Sbo.size_large hp hn', if_true]

/-- The hypotheses of `C29_set_size`: the empty vector. -/
example : Sbo.binv params3 (⟨fun _ => none, 0⟩ : Heap Nat) (Sbo.blank Nat 64 3) ([], 3) ∧ 2 ≤ 3 :=
  ⟨Sbo.blank_inv _, by decide⟩

end Verif.Containers
