import Verif.Containers.VectorProps
import Verif.Containers.SboWorld

/-!
# Requests for more elements than the maximum (C95)

What happens if a container that grows (`vector`, `sbo_vector`, the standard-style `vector`) is asked to hold more elements than its
maximum size.
-/

namespace Verif.Containers

open Verif Impl Lawful

variable {V O : Type} {I : Impl V O} {mn : Nat} {mkA : Bool} {L : Lawful I mn mkA}

/-! ## Model -/

/-- `reserve` of the standard-style vector (`std/vector.cpp` 219-221): the conversion `check_in_range` throws a `std::length_error`. -/
def stdReserve (I : Impl V O) (h : Heap V) (o : O) (n : Nat) (fails : Bool) : Out (Heap V × O) :=
  if I.mx < n then .exn (h, o) else I.reserve h o n fails

/-- The constructor `vector(count, value)` of the standard-style vector (`std/vector.cpp` 89-96): a range of `count` copies, of which
copy `k` throws if `thr k`. -/
def stdFill (mx : Nat) (h : Heap V) (count : Nat) (value : V) (thr : Nat → Bool) (fails : Bool) : Made (Heap V) (Heap V × Hdr V) :=
  Vec.ctor 0 mx (.sized ((List.range count).map fun k => ⟨value, thr k⟩) fails) h

/-- `assign(count, value)` of the standard-style vector (`std/vector.cpp` 127-129) for trivially copyable elements. -/
def stdAssignFill (I : Impl V O) (h : Heap V) (o : O) (count : Nat) (value : V) (al : Nat → Bool) : Out (Heap V × O) :=
  I.assignTrivial h o ((List.range count).map fun _ => ⟨value, false⟩) al

/-! ## What is reported -/

/-- An exception is thrown and the container has the elements and the capacity it had before. -/
def Refuses (L : Lawful I mn mkA) (r : Out (Heap V × O)) (xs : List V) (cap : Nat) : Prop :=
  ∃ h' o', r = .exn (h', o') ∧ L.Rep h' o' xs cap

theorem refuses_of {h : Heap V} {o : O} {xs : List V} {cap : Nat} {r : Out (Heap V × O)} {s : SV V × Bool} (g : Good L h o r s) (hs : s = ((xs, cap), true)) :
    Refuses L r xs cap := by
  subst hs
  obtain ⟨h', o', e, r', -⟩ := g
  exact ⟨h', o', e, r'⟩

theorem specInsert_over {q : Cfg} {xs : List V} {cap k : Nat} {vs : List V} {nt : Bool} {al : Nat → Bool} (hc : cap ≤ q.mx) (h : q.mx < xs.length + vs.length) :
    specInsert q (xs, cap) k vs nt al = ((xs, cap), true) := by
  simp only [specInsert]
  rw [if_neg (by omega), if_pos]
  have : q.mx < max (xs.length + vs.length) (2 * cap) := by omega
  simp [this]

/-- `insert`, `append`, `resize` and `reserve` with more elements than the maximum throw, whatever else fails, and leave the container as it was.
This is for every container that can grow. -/
theorem C95_growing_throws {h : Heap V} {o : O} {xs : List V} {cap : Nat} (r : L.Rep h o xs cap) (hf : Fresh h) (hr : I.reservable = true) :
    (∀ k src al, k ≤ xs.length → I.mx < xs.length + src.length → Refuses L (I.insert h o k src al) xs cap) ∧
      (∀ src al, I.mx < xs.length + src.length → Refuses L (I.append h o src al) xs cap) ∧
      (∀ n gen al, I.mx < n → Refuses L (I.resize h o n gen al) xs cap) ∧
      (∀ n fails, I.mx < n → Refuses L (stdReserve I h o n fails) xs cap) := by
  have hcap : cap ≤ I.mx := r.view.range.2
  have hxl : xs.length ≤ cap := r.2
  have hap : ∀ n, appendPre L.cfg (xs, cap) n := fun n hq => by rw [show L.cfg.reservable = I.reservable from rfl, hr] at hq; cases hq
  refine ⟨fun k src al hk hm => ?_, fun src al hm => ?_, fun n gen al hm => ?_, fun n fails hm => ?_⟩
  · refine refuses_of (good_step r hf (.insert k src al) ⟨hk, fun hs => ?_⟩) (specInsert_over hcap (by rw [List.length_map]; exact hm))
    subst hs
    simp only [List.length_nil, Nat.add_zero] at hm
    omega
  · exact refuses_of (good_step r hf (.append src al) (hap _)) (specInsert_over hcap (by rw [List.length_map]; exact hm))
  · refine refuses_of (good_step r hf (.resize n gen al) (hap _)) ?_
    simp only [GOp.spec]
    rw [if_neg (by omega)]
    refine specInsert_over hcap ?_
    simp only [List.length_map, List.length_range]
    show I.mx < _
    omega
  · exact ⟨h, o, by rw [stdReserve, if_pos hm], r⟩

/-- `reserve` of the standard-style vector with a number up to the maximum: the capacity is then at least that number, or the allocation failed
and nothing has changed. -/
theorem C95_reserve {h : Heap V} {o : O} {xs : List V} {cap : Nat} (r : L.Rep h o xs cap) (hf : Fresh h) (hr : I.reservable = true) {n : Nat} (hn : n ≤ I.mx) (fails : Bool) :
    (∃ h' o' cap', stdReserve I h o n fails = .ok (h', o') ∧ L.Rep h' o' xs cap' ∧ n ≤ cap') ∨ fails = true ∧ Refuses L (stdReserve I h o n fails) xs cap := by
  rw [stdReserve, if_neg (by omega)]
  have g := good_step r hf (.reserve n fails) ⟨hn, hr⟩
  simp only [GOp.spec] at g
  by_cases hc : n ≤ cap
  · rw [if_pos hc] at g
    obtain ⟨h', o', e, r', -⟩ := g
    exact .inl ⟨h', o', cap, e, r', hc⟩
  · rw [if_neg hc] at g
    cases fails with
    | true => exact .inr ⟨rfl, refuses_of g rfl⟩
    | false =>
      obtain ⟨h', o', e, r', -⟩ := g
      exact .inl ⟨h', o', n, e, r', Nat.le_refl _⟩

/-- `assign` of too many elements whose assignment does not throw: an exception is thrown, but only after the existing elements have been overwritten. -/
theorem C95_assign {h : Heap V} {o : O} {xs : List V} {cap : Nat} (r : L.Rep h o xs cap) (hf : Fresh h) (hr : I.reservable = true) {src : List (Item V)}
    (hs : ∀ it ∈ src, it.throws = false) (hm : I.mx < src.length) (left : V) (al : Nat → Bool) :
    Refuses L (I.assign h o src left al) ((src.map (·.val)).take xs.length) cap := by
  have hcap : cap ≤ I.mx := r.view.range.2
  have hxl : xs.length ≤ cap := r.2
  have g := good_step r hf (.assign src left al) (fun hq => by rw [show L.cfg.reservable = I.reservable from rfl, hr] at hq; cases hq)
  refine refuses_of g ?_
  simp only [GOp.spec]
  rw [show (src.take xs.length).findIdx? (·.throws) = none from List.findIdx?_eq_none_iff.2 fun it hit => hs it (List.mem_of_mem_take hit)]
  refine specInsert_over hcap ?_
  simp only [List.length_map, List.length_take, List.length_drop]
  show I.mx < _
  omega

/-! ## What is not reported -/

/-- Construction from a range of more elements than the maximum, and so `vector(count, value)` of the standard-style vector, is undefined. -/
theorem C95_construct_violated {mx : Nat} (h : Heap V) {src : List (Item V)} (hm : mx < src.length) (fails : Bool) :
    Vec.ctor mn mx (.sized src fails) h = .ub ∧ ∀ count value thr, mx < count → stdFill mx h count value thr fails = .ub := by
  have key : ∀ (mn : Nat) (src : List (Item V)), mx < src.length → Vec.ctor mn mx (.sized src fails) h = .ub := fun mn src hm => by
    simp only [Vec.ctor, Vec.fromSized]
    rw [if_pos hm]
  exact ⟨key mn src hm, fun count value thr hc => key 0 _ (by simpa using hc)⟩

/-- The same for `sbo_vector`. -/
theorem C95_construct_sbo_violated {W sc mx : Nat} (hp : Sbo.Params W sc mx) {src : List (Item V)} (hm : mx < src.length) (h : Heap V) (al : Nat → Bool) :
    Sbo.ctor W sc mx (.sized src al) h = .ub := by
  have hb : (Sbo.lawful hp).Rep h (Sbo.blank V W sc) [] sc := Sbo.blank_inv h
  have hsz : (sbo V W sc mx).size (Sbo.blank V W sc) = 0 := hb.1.2.2
  have hcap : (sbo V W sc mx).capacity (Sbo.blank V W sc) = some sc := hb.view.cap
  have : (sbo V W sc mx).assignToEmpty h (Sbo.blank V W sc) src al = .ub := by
    simp only [Impl.assignToEmpty, hcap]
    rw [if_neg (by simp [hsz]), if_pos (show (sbo V W sc mx).reservable = true from rfl), if_pos (show (sbo V W sc mx).mx < src.length from hm)]
  simp only [Sbo.ctor, this, Sbo.fail]

/-- `assign(count, value)` of trivially copyable elements with a count up to the maximum, if no allocation fails: `count` copies of the value. -/
theorem C95_assign_within {h : Heap V} {o : O} {xs : List V} {cap : Nat} (r : L.Rep h o xs cap) (hf : Fresh h) (hr : I.reservable = true) {count : Nat} (hc : count ≤ I.mx) (value : V)
    {al : Nat → Bool} (ha : al 0 = false) :
    ∃ h' o', stdAssignFill I h o count value al = .ok (h', o') ∧ L.Rep h' o' (List.replicate count value) (max cap count) := by
  obtain ⟨h', o', e, r', -⟩ := good_assignTrivial r hf ((List.range count).map fun _ => ⟨value, false⟩) al (fun _ => ⟨by simpa using hc, fun _ => ha⟩)
  have hq : L.cfg.reservable = true := hr
  have hs : GOp.spec L.cfg (xs, cap) (.assignTrivial ((List.range count).map fun _ => (⟨value, false⟩ : Item V)) al) =
      ((List.replicate count value, max cap count), false) := by
    simp only [GOp.spec, hq, Bool.not_true, Bool.false_and, Bool.false_eq_true, if_false, List.length_map, List.length_range]
    rw [if_neg (by simp)]
    have : ((List.range count).map fun _ => (⟨value, false⟩ : Item V)).map (·.val) = List.replicate count value := by
      rw [List.map_map, List.eq_replicate_iff]; simp
    rw [this]
  rw [hs] at e r'
  exact ⟨h', o', e, r'⟩

/-- `assign` of more elements than the maximum is undefined if the elements are trivially copyable. -/
theorem C95_assign_trivial_violated {h : Heap V} {o : O} {xs : List V} {cap : Nat} (r : L.Rep h o xs cap) (hf : Fresh h) (hr : I.reservable = true) {src : List (Item V)}
    (hm : I.mx < src.length) (al : Nat → Bool) :
    I.assignTrivial h o src al = .ub ∧ ∀ count value, I.mx < count → stdAssignFill I h o count value al = .ub := by
  have key : ∀ src : List (Item V), I.mx < src.length → I.assignTrivial h o src al = .ub := fun src hm => by
    obtain ⟨h1, o1, e, r1, -⟩ := good_step r hf .clear trivial
    have e' : I.clear h o = .ok (h1, o1) := e
    have hsz : I.size o1 = 0 := r1.1.2.2
    have hcap : I.capacity o1 = some cap := r1.view.cap
    simp only [Impl.assignTrivial, e', Impl.assignToEmpty, hcap]
    rw [if_neg (by simp [hsz]), if_pos hr, if_pos hm]
  exact ⟨key src hm, fun count value hc => key _ (by simpa using hc)⟩

/-- `push_back` to a full vector whose capacity cannot be doubled is undefined; in particular to one that has as many elements as it may. -/
theorem C95_push_back_violated {mx : Nat} {hmm : mn ≤ mx} {h : Heap V} {o : Hdr V} {xs : List V} {cap : Nat} (r : (Vec.lawful mn mx hmm).Rep h o xs cap) (hr : mn ≠ mx)
    (hfull : xs.length = cap) (hm : mx < 2 * cap) (c : PSrc V) {al : Nat → Bool} (ha : al 0 = false) : (vec V mn mx).pushBack h o c al = .ub := by
  have hcap : (vec V mn mx).capacity o = some cap := r.view.cap
  have hsz : (vec V mn mx).size o = xs.length := r.1.2.2
  have hle : cap ≤ mx := r.view.range.2
  have hnew : ∃ h1 t, (vec V mn mx).new h (al 0) = .ok (h1, t) := by
    rw [ha]
    show ∃ h1 t, Vec.new mn h false = .ok (h1, t)
    rw [Vec.new]
    split
    · exact ⟨_, _, rfl⟩
    · exact ⟨_, _, rfl⟩
  obtain ⟨h1, t, hnew⟩ := hnew
  simp only [Impl.pushBack, hcap, hnew]
  rw [if_neg (show ¬(vec V mn mx).mx = 0 by show ¬mx = 0; omega), if_neg (by omega), if_pos (show (vec V mn mx).reservable = true by simp [vec, hr]),
    if_pos (show (vec V mn mx).mx < reallocationSize cap 1 by show mx < _; simp only [reallocationSize]; omega)]

/-! ## Examples -/

/-- A `vector<int, 3>` with two elements: two more are refused, the third one is undefined. -/
example : (runHist (vsys Nat 0 3).step (start Nat (Hdr Nat)) [.make 0 (.sized [lit 1, lit 2] false), .un 0 (.append [lit 3, lit 4] fun _ => false)]).map (·.2) = some [false, true] ∧
    runHist (vsys Nat 0 3).step (start Nat (Hdr Nat)) [.make 0 (.sized [lit 1, lit 2, lit 3] false), .un 0 (push 4)] = none ∧
    runHist (vsys Nat 0 3).step (start Nat (Hdr Nat)) [.make 0 (.sized [lit 1, lit 2, lit 3, lit 4] false)] = none := ⟨rfl, rfl, rfl⟩

end Verif.Containers
