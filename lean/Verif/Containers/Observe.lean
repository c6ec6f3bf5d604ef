import Verif.Containers.Algorithms

/-!
# What a program can observe of a container (C99)

Histories fix their operations in advance. Here a program decides what to do next by what it has read so far: through `size`, `is_empty`, `at`, `[]`,
`front`, `back` and iteration, and it also writes elements in place. Whatever it does, it reads what a mathematical sequence would give, and so
it cannot tell which container it uses.
-/

namespace Verif.Containers

open Verif Impl Lawful Verif.Bounded

variable {V O R : Type}

/-! ## Model -/

/-- A program that uses one container and ends with a result. `at` gets an index of any type with the value `x`; if it throws the program continues
with nothing. -/
inductive Session (V R : Type) where
  | ret (r : R)
  /-- an operation; the program learns if it threw -/
  | use (u : GOp V) (k : Bool → Session V R)
  | size (k : Nat → Session V R)
  | isEmpty (k : Bool → Session V R)
  | at' (i : Arg) (x : Int) (k : Option V → Session V R)
  | get (i : Nat) (k : V → Session V R)
  | set (i : Nat) (v : V) (k : Session V R)
  | front (k : V → Session V R)
  | back (k : V → Session V R)
  | iterate (k : List V → Session V R)

/-- `operator[]` (`bounded_vector.cpp` 150, `static_vector.cpp` 110, `sbo_vector.cpp` 242: `*(begin() + index)`); there is nothing to read outside of
the elements. -/
def Impl.index (I : Impl V O) (h : Heap V) (o : O) (k : Nat) : Option V := readCell (I.mem h o).1 (I.mem h o).2 k

/-- `container[k] = v`: assignment to an element that exists. -/
def Impl.assignAt (I : Impl V O) (h : Heap V) (o : O) (k : Nat) (v : V) : Option (Heap V × O) :=
  match I.index h o k with
  | none => none
  | some _ => some (I.put h o (upd (I.mem h o).2 k (some v)))

/-- `at.cpp` 24-31: `size` is an `integer<0, mx>`. The conversion to the index type in line 30 does not change the value. -/
def Impl.at' (I : Impl V O) (W : Nat) (h : Heap V) (o : O) (i : Arg) : Option (Res V) :=
  match minus W ((Rng.mk 0 I.mx).unchecked W (I.size o)) (constB 1) with
  | none => none
  | some .ub => some .ub
  | some .exn => some .exn
  | some (.ok last) =>
    match checkInRange W (.bounded (i.toB W)) (.bounded (constB 0)) (.bounded last) with
    | none => none
    | some .ub => some .ub
    | some .exn => some .exn
    | some (.ok c) =>
      match c.value with
      | .ok k => match I.index h o k.toNat with
        | some v => some (.ok v)
        | none => some .ub
      | .ub => some .ub
      | .exn => some .exn

/-- `is_empty.cpp` 27-31 for containers: `begin == end`, where `end` is `begin + size()` (`begin_end.cpp` 54-61). -/
def Impl.isEmpty (I : Impl V O) (o : O) : Bool := 0 == 0 + I.size o

/-- `front.cpp` 19-22: an assertion, then `*begin`. -/
def Impl.front (I : Impl V O) (h : Heap V) (o : O) : Option V := if I.isEmpty o then none else I.index h o 0

/-- `back.cpp` 20-23: an assertion, then `*prev(end)`. -/
def Impl.back (I : Impl V O) (h : Heap V) (o : O) : Option V := if I.isEmpty o then none else I.index h o (I.size o - 1)

/-- Running a program; nothing if it is undefined or does not compile. -/
def Session.run (I : Impl V O) (W mn : Nat) : Session V R → Heap V → O → Option (R × Heap V × O)
  | .ret r, h, o => some (r, h, o)
  | .use u k, h, o =>
    match I.step mn h o u with
    | .ok s => (k false).run I W mn s.1 s.2
    | .exn s => (k true).run I W mn s.1 s.2
    | .ub => none
  | .size k, h, o => (k (I.size o)).run I W mn h o
  | .isEmpty k, h, o => (k (I.isEmpty o)).run I W mn h o
  | .at' i _ k, h, o =>
    match I.at' W h o i with
    | some (.ok v) => (k (some v)).run I W mn h o
    | some .exn => (k none).run I W mn h o
    | _ => none
  | .get i k, h, o =>
    match I.index h o i with
    | some v => (k v).run I W mn h o
    | none => none
  | .set i v k, h, o =>
    match I.assignAt h o i v with
    | some s => k.run I W mn s.1 s.2
    | none => none
  | .front k, h, o =>
    match I.front h o with
    | some v => (k v).run I W mn h o
    | none => none
  | .back k, h, o =>
    match I.back h o with
    | some v => (k v).run I W mn h o
    | none => none
  | .iterate k, h, o =>
    match readFrom (I.mem h o).1 (I.mem h o).2 0 (I.size o) with
    | some vs => (k vs).run I W mn h o
    | none => none

/-! ## Specification -/

/-- What an operation means for the sequence of elements if it does not throw. -/
def GOp.seq (xs : List V) : GOp V → List V
  | .push (.lit v _) _ => xs ++ [v]
  | .push (.self k _) _ => xs ++ xs[k]?.toList
  | .pop => xs.dropLast
  | .append src _ | .appendUnsized src _ => xs ++ src.map (·.val)
  | .insert k src _ => xs.take k ++ src.map (·.val) ++ xs.drop k
  | .erase a b => xs.take a ++ xs.drop b
  | .eraseToEnd k => xs.take k
  | .eraseIf p _ => xs.filter fun v => !p v
  | .clear => []
  | .resize n gen _ => xs.take n ++ (List.range (n - xs.length)).map fun i => (gen i).val
  | .reserve _ _ | .shrink _ => xs
  | .assignTrivial src _ | .assign src _ _ => src.map (·.val)

/-- The program on a sequence with a capacity; operations may throw. -/
def Session.meaning (q : Cfg) : Session V R → SV V → Option (R × SV V)
  | .ret r, s => some (r, s)
  | .use u k, s => (k (u.spec q s).2).meaning q (u.spec q s).1
  | .size k, s => (k s.1.length).meaning q s
  | .isEmpty k, s => (k s.1.isEmpty).meaning q s
  | .at' _ x k, s => (k (if 0 ≤ x then s.1[x.toNat]? else none)).meaning q s
  | .get i k, s => s.1[i]?.bind fun v => (k v).meaning q s
  | .set i v k, s => if i < s.1.length then k.meaning q (s.1.set i v, s.2) else none
  | .front k, s => s.1.head?.bind fun v => (k v).meaning q s
  | .back k, s => s.1.getLast?.bind fun v => (k v).meaning q s
  | .iterate k, s => (k s.1).meaning q s

/-- The program on a sequence alone, where nothing throws but `at`. -/
def Session.pure : Session V R → List V → Option (R × List V)
  | .ret r, xs => some (r, xs)
  | .use u k, xs => (k false).pure (u.seq xs)
  | .size k, xs => (k xs.length).pure xs
  | .isEmpty k, xs => (k xs.isEmpty).pure xs
  | .at' _ x k, xs => (k (if 0 ≤ x then xs[x.toNat]? else none)).pure xs
  | .get i k, xs => xs[i]?.bind fun v => (k v).pure xs
  | .set i v k, xs => if i < xs.length then k.pure (xs.set i v) else none
  | .front k, xs => xs.head?.bind fun v => (k v).pure xs
  | .back k, xs => xs.getLast?.bind fun v => (k v).pure xs
  | .iterate k, xs => (k xs).pure xs

/-- What the program has to ensure, in the run that it has: the preconditions of the operations, elements that exist for `[]`, `front` and `back`, and
for `at` an index type with at least one value that can be an index of a container of this type. -/
def Session.Pre (W : Nat) (q : Cfg) : Session V R → SV V → Prop
  | .ret _, _ => True
  | .use u k, s => u.pre q s ∧ (k (u.spec q s).2).Pre W q (u.spec q s).1
  | .size k, s => (k s.1.length).Pre W q s
  | .isEmpty k, s => (k s.1.isEmpty).Pre W q s
  | .at' i x k, s => (ArgHolds W i x ∧ 0 < q.mx ∧ i.rng.lo < q.mx ∧ 0 ≤ i.rng.hi) ∧ (k (if 0 ≤ x then s.1[x.toNat]? else none)).Pre W q s
  | .get i k, s => i < s.1.length ∧ ∀ v, s.1[i]? = some v → (k v).Pre W q s
  | .set i v k, s => i < s.1.length ∧ k.Pre W q (s.1.set i v, s.2)
  | .front k, s => s.1 ≠ [] ∧ ∀ v, s.1.head? = some v → (k v).Pre W q s
  | .back k, s => s.1 ≠ [] ∧ ∀ v, s.1.getLast? = some v → (k v).Pre W q s
  | .iterate k, s => (k s.1).Pre W q s

/-- No operation throws in the run. -/
def Session.Calm (q : Cfg) : Session V R → SV V → Prop
  | .ret _, _ => True
  | .use u k, s => (u.spec q s).2 = false ∧ (k false).Calm q (u.spec q s).1
  | .size k, s => (k s.1.length).Calm q s
  | .isEmpty k, s => (k s.1.isEmpty).Calm q s
  | .at' _ x k, s => (k (if 0 ≤ x then s.1[x.toNat]? else none)).Calm q s
  | .get i k, s => ∀ v, s.1[i]? = some v → (k v).Calm q s
  | .set i v k, s => k.Calm q (s.1.set i v, s.2)
  | .front k, s => ∀ v, s.1.head? = some v → (k v).Calm q s
  | .back k, s => ∀ v, s.1.getLast? = some v → (k v).Calm q s
  | .iterate k, s => (k s.1).Calm q s

/-! ## One observation -/

variable {I : Impl V O} {mn : Nat} {mkA : Bool} {L : Lawful I mn mkA} {W : Nat}

theorem Rep.index {h : Heap V} {o : O} {xs : List V} {cap : Nat} (r : L.Rep h o xs cap) (k : Nat) : I.index h o k = xs[k]? :=
  congrFun (Rep.slots r) k

theorem checkInRange_compiles (hW : 64 ≤ W) {b last : BInt} {x l : Int} (hb : Holds W b x) (hl : Holds W last l)
    (h1 : 0 ≤ b.rng.hi) (h2 : b.rng.lo ≤ last.rng.hi) (h3 : 0 ≤ last.rng.hi) :
    checkInRange W (.bounded b) (.bounded (constB 0)) (.bounded last) ≠ none := by
  have p := pow_facts hW
  have h0 : Holds W (constB 0) 0 := constB_holds hW (by unfold Bounded.Rep; omega)
  have rb := hb.1.rep hW
  have rl := hl.1.rep hW
  have wb := (wf_iff hW _).mp hb.1
  have wl := (wf_iff hW _).mp hl.1
  have rz : Bounded.Rep W 0 := by unfold Bounded.Rep; omega
  have e1 : safeMax W (constB 0).rng.lo b.rng.lo = max 0 b.rng.lo := safeMax_eq hW rz rb.1
  have e2 : safeMin W last.rng.hi b.rng.hi = min last.rng.hi b.rng.hi := safeMin_eq hW rl.2 rb.2
  have st : max 0 b.rng.lo ≤ min last.rng.hi b.rng.hi ∧ Storable W (max 0 b.rng.lo) (min last.rng.hi b.rng.hi) := by
    unfold Storable at *
    omega
  have hr : mkInteger W (max 0 b.rng.lo) (min last.rng.hi b.rng.hi) = some ⟨max 0 b.rng.lo, min last.rng.hi b.rng.hi⟩ := by
    rw [mkInteger_eq hW, if_pos st]
  have ov : b.rng.overlaps W ⟨max 0 b.rng.lo, min last.rng.hi b.rng.hi⟩ = true := by
    rw [overlaps_eq hW hb.1 (wf_of_mk hW hr)]
    simp only [decide_eq_true_eq]
    omega
  have ha : ∃ c, assumeImplArg W (.bounded b) (.bounded (constB 0)) (.bounded last) = some (.ok c) := by
    unfold assumeImplArg
    simp only [Arg.rng, e1, e2, hr, Option.bind_eq_bind, Option.bind_some, ov, if_true, Arg.read, hb.2]
    exact ⟨_, rfl⟩
  obtain ⟨c, hc⟩ := ha
  unfold checkInRange
  rw [hc]
  exact fun h => by cases h

theorem Rep.at' (hW : 64 ≤ W) (hm : (I.mx : Int) < 2 ^ (W - 1)) {h : Heap V} {o : O} {xs : List V} {cap : Nat} (r : L.Rep h o xs cap) {i : Arg} {x : Int}
    (hi : ArgHolds W i x) (h0 : 0 < I.mx) (h1 : i.rng.lo < I.mx) (h2 : 0 ≤ i.rng.hi) :
    I.at' W h o i = some (match (if 0 ≤ x then xs[x.toNat]? else none) with | some v => .ok v | none => .exn) := by
  have p := pow_facts hW
  have hs : I.size o = xs.length := r.1.2.2
  have hb : xs.length ≤ I.mx := by
    have := (L.wf_range r.1.1).2
    rw [r.1.2.1] at this
    have := r.2
    simp only at *
    omega
  have hx : i.rng.lo ≤ x ∧ x ≤ i.rng.hi := by
    have := toB_holds hW hi
    have m := value_mem this.1.2 ((wf_iff hW _).mp this.1.1).1
    rw [this.2] at m; exact m
  have hr : (Rng.mk 0 I.mx).Wf W := by
    rw [wf_iff hW]; unfold Storable; simp only; omega
  have hsz := (holds_of_mem hW hr (x := (I.size o : Int)) (by unfold Rng.Mem; simp only; omega)).1
  have h1' : Holds W (constB 1) 1 := constB_holds hW (by unfold Bounded.Rep; omega)
  have hz : Holds W (constB 0) 0 := constB_holds hW (by unfold Bounded.Rep; omega)
  have wn : negTy W (constB 1).rng = some ⟨-1, -1⟩ := by
    rw [negTy_eq hW h1'.1, mkInteger_eq hW, if_pos (by unfold Storable constB; simp only; omega)]; rfl
  have wn' : (Rng.mk (-1) (-1)).Wf W := by rw [wf_iff hW]; unfold Storable; simp only; omega
  have hty : minusTy W (Rng.mk 0 I.mx) (constB 1).rng = some ⟨-1, I.mx - 1⟩ := by
    unfold minusTy
    rw [wn]
    simp only [Option.bind_eq_bind, Option.bind_some]
    rw [plusTy_eq hW hr wn', mkInteger_eq hW, if_pos (by unfold Storable; simp only; omega)]
    simp only [Option.some.injEq, Rng.mk.injEq]; omega
  obtain ⟨last, e1, e2, e3, e4, e5⟩ := minus_value hW hsz.1 h1'.1 hty hsz.2 h1'.2
  have hl : Holds W last (I.size o - 1) := ⟨by rw [e2]; exact e5, e3⟩
  have tb := toB_holds hW hi
  have hc := checkInRange_compiles hW tb.1 hl (by rw [tb.2]; exact h2) (by rw [tb.2, e2]; show i.rng.lo ≤ (I.mx : Int) - 1; omega)
    (by rw [e2]; show 0 ≤ (I.mx : Int) - 1; omega)
  have sp := checkInRange_spec hW (v := .bounded (i.toB W)) (lo := .bounded (constB 0)) (hi := .bounded last) tb.1 hz hl hc trivial trivial
  by_cases hin : 0 ≤ x ∧ x < xs.length
  · obtain ⟨c, c1, _, c3⟩ := sp.1 (by omega)
    have hk : x.toNat < xs.length := by omega
    simp only [Impl.at', e1, c1, c3.2, Rep.index r, if_pos hin.1, List.getElem?_eq_getElem hk]
  · have : (if 0 ≤ x then xs[x.toNat]? else none) = none := by
      split
      · exact List.getElem?_eq_none (by omega)
      · rfl
    simp only [Impl.at', e1, sp.2 (by omega), this]

theorem Rep.isEmpty {h : Heap V} {o : O} {xs : List V} {cap : Nat} (r : L.Rep h o xs cap) : I.isEmpty o = xs.isEmpty := by
  have hs : I.size o = xs.length := r.1.2.2
  cases xs with
  | nil => simp [Impl.isEmpty, hs]
  | cons x xs => rw [Impl.isEmpty, hs]; simp [show ¬ 0 = xs.length + 1 by omega]

theorem Rep.front {h : Heap V} {o : O} {xs : List V} {cap : Nat} (r : L.Rep h o xs cap) : I.front h o = xs.head? := by
  rw [Impl.front, Rep.isEmpty r, Rep.index r]
  cases xs <;> rfl

theorem Rep.back {h : Heap V} {o : O} {xs : List V} {cap : Nat} (r : L.Rep h o xs cap) : I.back h o = xs.getLast? := by
  have hs : I.size o = xs.length := r.1.2.2
  rw [Impl.back, Rep.isEmpty r, Rep.index r, hs, List.getLast?_eq_getElem?]
  cases xs <;> rfl

theorem Rep.iterate {h : Heap V} {o : O} {xs : List V} {cap : Nat} (r : L.Rep h o xs cap) :
    readFrom (I.mem h o).1 (I.mem h o).2 0 (I.size o) = some xs := by
  obtain ⟨⟨-, h2, h3⟩, h4⟩ := r
  rw [h2, h3]
  exact readFrom_eq cap xs h4 _ 0 (by omega)

theorem Rep.assignAt {h : Heap V} {o : O} {xs : List V} {cap : Nat} (r : L.Rep h o xs cap) {k : Nat} (hk : k < xs.length) (v : V) :
    ∃ h' o', I.assignAt h o k v = some (h', o') ∧ L.Rep h' o' (xs.set k v) cap ∧ Frame (I.own o) h (I.own o') h' := by
  have e : upd (I.mem h o).2 k (some v) = fun j => (xs.set k v)[j]? := by
    rw [r.1.2.1]
    funext j
    by_cases hj : j = k
    · subst hj; rw [upd_same, List.getElem?_set_self hk]
    · rw [upd_other _ _ hj, List.getElem?_set_ne (by omega)]
  obtain ⟨r', f⟩ := Rep.put (ys := xs.set k v) r (by simp)
  refine ⟨_, _, ?_, r', f⟩
  simp only [Impl.assignAt, Rep.index r, List.getElem?_eq_getElem hk, e]

/-! ## Operations that do not throw -/

theorem specPush_seq {q : Cfg} {s : SV V} {v : V} {t : Bool} {al : Nat → Bool} (h : (specPush q s v t al).2 = false) :
    (specPush q s v t al).1.1 = s.1 ++ [v] := by
  unfold specPush at *
  split_ifs at * <;> first | rfl | cases h

theorem specInsert_seq {q : Cfg} {s : SV V} {k : Nat} {vs : List V} {nt : Bool} {al : Nat → Bool} (h : (specInsert q s k vs nt al).2 = false) :
    (specInsert q s k vs nt al).1.1 = s.1.take k ++ vs ++ s.1.drop k := by
  unfold specInsert at *
  split_ifs at * <;> first | rfl | cases h

theorem specPushes_seq {q : Cfg} : ∀ {src : List (Item V)} {s : SV V} {al : Nat → Bool}, (specPushes q s src al).2 = false →
    (specPushes q s src al).1.1 = s.1 ++ src.map (·.val)
  | [], s, al, _ => by simp [specPushes]
  | it :: its, s, al, h => by
    rw [specPushes] at h ⊢
    by_cases ht : (specPush q s it.val it.throws al).2 = true
    · simp only [ht, if_true] at h; cases h
    · simp only [if_neg ht] at h ⊢
      rw [specPushes_seq h, specPush_seq (by simpa using ht)]
      simp

theorem GOp.spec_seq {q : Cfg} {s : SV V} : ∀ {u : GOp V}, (u.spec q s).2 = false → (u.spec q s).1.1 = u.seq s.1
  | .push (.lit v t) al, h => specPush_seq h
  | .push (.self k t) al, h => by
    rw [GOp.spec] at h ⊢
    rw [GOp.seq]
    cases e : s.1[k]? with
    | none => simp
    | some v => simp only [e] at h; simpa using specPush_seq h
  | .pop, _ => rfl
  | .append src al, h => by
    rw [GOp.spec] at h ⊢
    rw [specInsert_seq h, GOp.seq]; simp
  | .appendUnsized src al, h => by
    rw [GOp.spec] at h ⊢
    by_cases hr : q.reservable = true
    · rw [if_pos hr] at h ⊢
      rw [specPushes_seq h]; rfl
    · rw [if_neg hr] at h ⊢
      rw [specInsert_seq h, GOp.seq]; simp
  | .insert k src al, h => specInsert_seq h
  | .erase a b, _ => rfl
  | .eraseToEnd k, _ => rfl
  | .eraseIf p _, _ => rfl
  | .clear, _ => rfl
  | .resize n gen al, h => by
    rw [GOp.spec] at h ⊢
    rw [GOp.seq]
    by_cases hn : n ≤ s.1.length
    · simp [if_pos hn, show n - s.1.length = 0 by omega]
    · rw [if_neg hn] at h ⊢
      simp only at h ⊢
      rw [specInsert_seq h]
      simp [List.take_of_length_le (show s.1.length ≤ n by omega)]
  | .reserve n f, h => by
    rw [GOp.spec] at h ⊢
    split_ifs at * <;> first | rfl | cases h
  | .shrink al, h => by
    rw [GOp.spec] at h ⊢
    split_ifs at * <;> first | rfl | cases h
  | .assignTrivial src _, h => by
    rw [GOp.spec] at h ⊢
    split_ifs at * <;> first | rfl | cases h
  | .assign src left al, h => by
    rw [GOp.spec] at h ⊢
    split at h
    · cases h
    · rename_i e
      simp only at h ⊢
      rw [specInsert_seq h, GOp.seq]
      simp only [List.take_length, List.drop_length, List.append_nil]
      rw [List.map_drop, List.take_append_drop]

/-! ## The theorems -/

/-- Whatever a program does with a container (`vector`, `static_vector`, `sbo_vector`), deciding by what it reads, it is defined and ends with the
result and the elements that it has for a mathematical sequence. -/
theorem C99_session_partial (hW : 64 ≤ W) (hm : (I.mx : Int) < 2 ^ (W - 1)) : ∀ (p : Session V R) {h : Heap V} {o : O} {s : SV V}, L.Rep h o s.1 s.2 → Fresh h →
    p.Pre W L.cfg s → ∃ r h' o' s', p.run I W mn h o = some (r, h', o') ∧ p.meaning L.cfg s = some (r, s') ∧ L.Rep h' o' s'.1 s'.2 ∧
      Frame (I.own o) h (I.own o') h'
  | .ret r, h, o, s, rep, _, _ => ⟨r, h, o, s, rfl, rfl, rep, Frame.refl _ _⟩
  | .use u k, h, o, s, rep, hf, hp => by
    obtain ⟨h1, o1, e, r1, f1, -⟩ := good_step (L := L) (xs := s.1) (cap := s.2) rep hf u hp.1
    obtain ⟨r, h2, o2, s2, e2, m2, r2, f2⟩ := C99_session_partial hW hm (k (u.spec L.cfg s).2) r1 (f1.fresh hf) hp.2
    refine ⟨r, h2, o2, s2, ?_, m2, r2, f1.trans f2⟩
    rw [Session.run, e]
    change (k (u.spec L.cfg s).2).run I W mn h1 o1 = _ at e2
    cases ht : (u.spec L.cfg s).2 <;> rw [ht] at e2 <;> simpa [Out.of, ht] using e2
  | .size k, h, o, s, rep, hf, hp => by
    rw [Session.run, Session.meaning, show I.size o = s.1.length from rep.1.2.2]
    exact C99_session_partial hW hm _ rep hf hp
  | .isEmpty k, h, o, s, rep, hf, hp => by
    rw [Session.run, Session.meaning, Rep.isEmpty rep]
    exact C99_session_partial hW hm _ rep hf hp
  | .at' i x k, h, o, s, rep, hf, hp => by
    obtain ⟨⟨a1, a2, a3, a4⟩, hp⟩ := hp
    rw [Session.run, Session.meaning, Rep.at' hW hm rep a1 a2 a3 a4]
    cases e : (if 0 ≤ x then s.1[x.toNat]? else none) with
    | none => rw [e] at hp; exact C99_session_partial hW hm _ rep hf hp
    | some v => rw [e] at hp; exact C99_session_partial hW hm _ rep hf hp
  | .get i k, h, o, s, rep, hf, hp => by
    have e := List.getElem?_eq_getElem hp.1
    rw [Session.run, Session.meaning, Rep.index rep, e]
    exact C99_session_partial hW hm _ rep hf (hp.2 _ e)
  | .set i v k, h, o, s, rep, hf, hp => by
    obtain ⟨h1, o1, e, r1, f1⟩ := Rep.assignAt rep hp.1 v
    obtain ⟨r, h2, o2, s2, e2, m2, r2, f2⟩ := C99_session_partial hW hm k (s := (s.1.set i v, s.2)) r1 (f1.fresh hf) hp.2
    refine ⟨r, h2, o2, s2, ?_, ?_, r2, f1.trans f2⟩
    · rw [Session.run, e]; exact e2
    · rw [Session.meaning, if_pos hp.1]; exact m2
  | .front k, h, o, s, rep, hf, hp => by
    have e := List.head?_eq_some_head hp.1
    rw [Session.run, Session.meaning, Rep.front rep, e]
    exact C99_session_partial hW hm _ rep hf (hp.2 _ e)
  | .back k, h, o, s, rep, hf, hp => by
    have e := List.getLast?_eq_some_getLast hp.1
    rw [Session.run, Session.meaning, Rep.back rep, e]
    exact C99_session_partial hW hm _ rep hf (hp.2 _ e)
  | .iterate k, h, o, s, rep, hf, hp => by
    rw [Session.run, Session.meaning, Rep.iterate rep]
    exact C99_session_partial hW hm _ rep hf hp

/-- If no operation throws, the capacity has no part in it. -/
theorem meaning_pure {q : Cfg} : ∀ (p : Session V R) {s : SV V}, p.Calm q s → (p.meaning q s).map (fun r => (r.1, r.2.1)) = p.pure s.1
  | .ret r, s, _ => rfl
  | .use u k, s, hc => by
    rw [Session.meaning, Session.pure, hc.1, meaning_pure (k false) hc.2, GOp.spec_seq hc.1]
  | .size k, s, hc => meaning_pure (k _) hc
  | .isEmpty k, s, hc => meaning_pure (k _) hc
  | .at' i x k, s, hc => meaning_pure (k _) hc
  | .get i k, s, hc => by
    rw [Session.meaning, Session.pure]
    cases e : s.1[i]? with
    | none => rfl
    | some v => exact meaning_pure (k v) (hc v e)
  | .set i v k, s, hc => by
    rw [Session.meaning, Session.pure]
    split
    · exact meaning_pure k hc
    · rfl
  | .front k, s, hc => by
    rw [Session.meaning, Session.pure]
    cases e : s.1.head? with
    | none => rfl
    | some v => exact meaning_pure (k v) (hc v e)
  | .back k, s, hc => by
    rw [Session.meaning, Session.pure]
    cases e : s.1.getLast? with
    | none => rfl
    | some v => exact meaning_pure (k v) (hc v e)
  | .iterate k, s, hc => meaning_pure (k _) hc

/-- A program in which no operation throws has the result that it has on sequences, where there is no container at all. -/
theorem C99_sequence_partial (hW : 64 ≤ W) (hm : (I.mx : Int) < 2 ^ (W - 1)) (p : Session V R) {h : Heap V} {o : O} {s : SV V} (rep : L.Rep h o s.1 s.2) (hf : Fresh h)
    (hp : p.Pre W L.cfg s) (hc : p.Calm L.cfg s) :
    ∃ r h' o' ys cap, p.run I W mn h o = some (r, h', o') ∧ p.pure s.1 = some (r, ys) ∧ L.Rep h' o' ys cap := by
  obtain ⟨r, h', o', s', e, m, rep', -⟩ := C99_session_partial hW hm p rep hf hp
  refine ⟨r, h', o', s'.1, s'.2, e, ?_, rep'⟩
  rw [← meaning_pure p hc, m]
  rfl

/-- Two containers of any two kinds and capacities with the same elements cannot be told apart by a program in which no operation throws: it has the
same result with both, and leaves the same elements. -/
theorem C99_independent_partial {P : Type} {J : Impl V P} {mn' : Nat} {mkA' : Bool} {K : Lawful J mn' mkA'} (hW : 64 ≤ W) (hm : (I.mx : Int) < 2 ^ (W - 1))
    (hm' : (J.mx : Int) < 2 ^ (W - 1)) (p : Session V R) {h h' : Heap V} {o : O} {o' : P} {xs : List V} {cap cap' : Nat} (rep : L.Rep h o xs cap) (rep' : K.Rep h' o' xs cap')
    (hf : Fresh h) (hf' : Fresh h') (hp : p.Pre W L.cfg (xs, cap)) (hp' : p.Pre W K.cfg (xs, cap')) (hc : p.Calm L.cfg (xs, cap)) (hc' : p.Calm K.cfg (xs, cap')) :
    ∃ r ys, (∃ k q c, p.run I W mn h o = some (r, k, q) ∧ L.Rep k q ys c) ∧ ∃ k q c, p.run J W mn' h' o' = some (r, k, q) ∧ K.Rep k q ys c := by
  obtain ⟨r, k, q, ys, c, e, m, v⟩ := C99_sequence_partial (s := (xs, cap)) hW hm p rep hf hp hc
  obtain ⟨r', k', q', ys', c', e', m', v'⟩ := C99_sequence_partial (s := (xs, cap')) hW hm' p rep' hf' hp' hc'
  have : some (r, ys) = some (r', ys') := m.symm.trans m'
  cases this
  exact ⟨r, ys, ⟨k, q, c, e, v⟩, k', q', c', e', v'⟩

/-! ## Examples -/

/-- A program that decides by what it reads. -/
def exSession : Session Nat (List Nat × Nat × Option Nat × Option Nat) :=
  .use (.push (.lit 4 false) fun _ => false) fun _ => .use (.push (.self 0 false) fun _ => false) fun _ => .isEmpty fun e =>
    if e then .ret ([], 0, none, none) else .size fun n => .set (n - 1) 9 <| .back fun b => .use (.insert 0 [lit b, lit 7] fun _ => false) fun _ =>
      .at' (.builtin intTy (-1)) (-1) fun a => .at' (.builtin intTy 3) 3 fun c => .front fun f => .get 1 fun g => .iterate fun xs => .ret (xs, f + g, a, c)

/-- It has the same result with three kinds of containers. -/
example : ((exSession.run (vec Nat 0 100) 64 0 ⟨fun _ => none, 0⟩ { ptr := none, cap := 0, size := 0 }).map (·.1)) = some ([9, 7, 4, 9], 16, none, some 9) ∧
    ((exSession.run (stat Nat 10) 64 10 ⟨fun _ => none, 0⟩ ⟨fun _ => none, 0⟩).map (·.1)) = some ([9, 7, 4, 9], 16, none, some 9) ∧
    ((exSession.run (sbo Nat 64 3 1000) 64 3 ⟨fun _ => none, 0⟩ (Sbo.blank Nat 64 3)).map (·.1)) = some ([9, 7, 4, 9], 16, none, some 9) := by
  decide +kernel

/-- That no operation throws is necessary: a full `static_vector` shows that it cannot grow. -/
example : ((Session.use (.push (.lit 4 false) fun _ => false) fun t => .ret t : Session Nat Bool).run (stat Nat 0) 64 0 ⟨fun _ => none, 0⟩ ⟨fun _ => none, 0⟩).map (·.1) = some true ∧
    ((Session.use (.push (.lit 4 false) fun _ => false) fun t => .ret t : Session Nat Bool).run (stat Nat 1) 64 1 ⟨fun _ => none, 0⟩ ⟨fun _ => none, 0⟩).map (·.1) = some false := by
  decide +kernel

/-- The hypotheses of `C99_independent_partial` for the program above. -/
example : (Vec.lawful (V := Nat) 0 100 (by omega)).Rep ⟨fun _ => none, 0⟩ { ptr := none, cap := 0, size := 0 } [] 0 ∧
    (Stat.lawful (V := Nat) 10).Rep ⟨fun _ => none, 0⟩ ⟨fun _ => none, 0⟩ [] 10 ∧ Fresh (⟨fun _ => none, 0⟩ : Heap Nat) ∧
    exSession.Pre 64 (Vec.lawful (V := Nat) 0 100 (by omega)).cfg ([], 0) ∧ exSession.Pre 64 (Stat.lawful (V := Nat) 10).cfg ([], 10) ∧
    exSession.Calm (Vec.lawful (V := Nat) 0 100 (by omega)).cfg ([], 0) ∧ exSession.Calm (Stat.lawful (V := Nat) 10).cfg ([], 10) := by
  refine ⟨⟨⟨.inl ⟨rfl, rfl, rfl⟩, rfl, rfl⟩, Nat.le_refl 0⟩, Stat.empty_rep _, fun _ _ => rfl, ?_, ?_, ?_, ?_⟩
  · simp [exSession, Session.Pre, GOp.pre, pushPre, GOp.spec, specPush, specInsert, Lawful.cfg, vec, lit, ArgHolds, Arg.rng, Ty, intTy, CTy.Fits, CTy.lo, CTy.hi]
  · simp [exSession, Session.Pre, GOp.pre, pushPre, GOp.spec, specPush, specInsert, Lawful.cfg, stat, lit, ArgHolds, Arg.rng, Ty, intTy, CTy.Fits, CTy.lo, CTy.hi]
  · simp [exSession, Session.Calm, GOp.spec, specPush, specInsert, Lawful.cfg, vec, lit]
  · simp [exSession, Session.Calm, GOp.spec, specPush, specInsert, Lawful.cfg, stat, lit]

end Verif.Containers
