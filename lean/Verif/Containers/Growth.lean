import Verif.Containers.Stable
import Verif.Containers.SboWorld
import Mathlib.Data.Nat.Log

/-!
# What growing a container costs (property C76)

A container that grows element by element has to move its elements to larger storage now and then. What is promised: adding elements costs
constant time on average, whatever the history. The cost is observed from outside: an operation has moved the elements that were there if the
storage is another one afterwards. `Cost` counts them, and what the user asked to add; neither looks at capacities.
-/

namespace Verif.Containers

open Verif Lawful

variable {V O : Type} {I : Impl V O} {mn : Nat} {mkA : Bool} {L : Lawful I mn mkA}

/-- The number of elements the user asks to add to a container of size `n`. -/
def GOp.adds (n : Nat) : GOp V → Nat
  | .push _ _ => 1
  | .append src _ | .appendUnsized src _ | .insert _ src _ | .assignTrivial src _ | .assign src _ _ => src.length
  | .resize m _ _ => m - n
  | _ => 0

/-- The operations that are not told how much storage to have, that replace the storage at most once and do not discard the elements first.
(`append` of a range of unknown size is a sequence of `push_back`s, see `Impl.pushAll`. Assignment of trivially copyable elements destroys
the elements before it replaces the storage.) -/
def GOp.plain : GOp V → Bool
  | .reserve _ _ | .shrink _ | .appendUnsized _ _ | .assignTrivial _ _ => false
  | _ => true

/-- Totals over a history: elements that were moved because the storage was replaced, times it was replaced, elements the user asked to add
(whether or not that succeeded). -/
structure Cost where
  moved : Nat
  replaced : Nat
  added : Nat
  deriving Repr, DecidableEq

/-- Add the cost of an operation that led from the object `o` to the object `o'`. -/
def Impl.addCost (I : Impl V O) (op : GOp V) (o o' : O) (c : Cost) : Cost :=
  if I.ptr o' = I.ptr o then { c with added := c.added + op.adds (I.size o) }
  else ⟨c.moved + I.size o, c.replaced + 1, c.added + op.adds (I.size o)⟩

/-- Running one operation (`Impl.step`) and adding up the cost. -/
def Impl.costStep (I : Impl V O) (mn : Nat) (s : (Heap V × O) × Cost) (op : GOp V) : Out ((Heap V × O) × Cost) :=
  match I.step mn s.1.1 s.1.2 op with
  | .ok r => .ok (r, I.addCost op s.1.2 r.2 s.2)
  | .exn r => .exn (r, I.addCost op s.1.2 r.2 s.2)
  | .ub => .ub

/-- The capacity after a plain operation: the same, or doubled at least and not more than twice what was asked for. The size grows by at most
what was added. -/
theorem spec_growth {q : Cfg} {xs : List V} {cap : Nat} (hx : xs.length ≤ cap) (op : GOp V) (hp : op.pre q (xs, cap)) (hs : op.plain = true) :
    (op.spec q (xs, cap)).1.1.length ≤ xs.length + op.adds xs.length ∧
      ((op.spec q (xs, cap)).1.2 = cap ∨ (2 * cap ≤ (op.spec q (xs, cap)).1.2 ∧ 1 ≤ (op.spec q (xs, cap)).1.2 ∧
        (op.spec q (xs, cap)).1.2 ≤ 2 * (xs.length + op.adds xs.length))) := by
  have ins : ∀ (ys : List V) (k : Nat) (vs : List V) (nt : Bool) (al : Nat → Bool), k ≤ ys.length → ys.length ≤ cap →
      (specInsert q (ys, cap) k vs nt al).1.1.length ≤ ys.length + vs.length ∧
      ((specInsert q (ys, cap) k vs nt al).1.2 = cap ∨ (2 * cap ≤ (specInsert q (ys, cap) k vs nt al).1.2 ∧
        1 ≤ (specInsert q (ys, cap) k vs nt al).1.2 ∧ (specInsert q (ys, cap) k vs nt al).1.2 ≤ 2 * (ys.length + vs.length))) := by
    intro ys k vs nt al hk hy
    simp only [specInsert]
    split
    · split
      · exact ⟨by simp; omega, .inl rfl⟩
      · exact ⟨by simp, .inl rfl⟩
    · split
      · exact ⟨by simp, .inl rfl⟩
      · exact ⟨by simp; omega, .inr ⟨by simp only; omega, by simp only; omega, by simp only; omega⟩⟩
  have push : ∀ (v : V) (t : Bool) (al : Nat → Bool),
      (specPush q (xs, cap) v t al).1.1.length ≤ xs.length + 1 ∧
      ((specPush q (xs, cap) v t al).1.2 = cap ∨ (2 * cap ≤ (specPush q (xs, cap) v t al).1.2 ∧
        1 ≤ (specPush q (xs, cap) v t al).1.2 ∧ (specPush q (xs, cap) v t al).1.2 ≤ 2 * (xs.length + 1))) := by
    intro v t al
    simp only [specPush]
    split
    · exact ⟨by simp, .inl rfl⟩
    · split
      · split
        · exact ⟨by simp, .inl rfl⟩
        · exact ⟨by simp, .inl rfl⟩
      · split
        · exact ⟨by simp, .inl rfl⟩
        · exact ⟨by simp, .inr ⟨by simp only; omega, by simp only; omega, by simp only; omega⟩⟩
  cases op with
  | push c al =>
    cases c with
    | lit v t => exact push v t al
    | self k t =>
      simp only [GOp.spec, GOp.adds]
      split
      · exact push _ t al
      · exact ⟨by simp, .inl rfl⟩
  | pop => exact ⟨by simp [GOp.spec]; omega, .inl rfl⟩
  | append src al =>
    have h1 := ins xs xs.length (src.map (·.val)) (!src.any (·.throws)) al (Nat.le_refl _) hx
    rw [List.length_map] at h1
    exact h1
  | appendUnsized src al => cases hs
  | insert k src al =>
    have h1 := ins xs k (src.map (·.val)) (!src.any (·.throws)) al hp.1 hx
    rw [List.length_map] at h1
    exact h1
  | erase a b =>
    have hab : a ≤ b ∧ b ≤ xs.length := hp
    exact ⟨by simp [GOp.spec]; omega, .inl rfl⟩
  | eraseToEnd k => exact ⟨by simp [GOp.spec], .inl rfl⟩
  | eraseIf p mv => exact ⟨Nat.le_trans (List.length_filter_le _ _) (by simp), .inl rfl⟩
  | clear => exact ⟨by simp [GOp.spec], .inl rfl⟩
  | resize n gen al =>
    simp only [GOp.spec, GOp.adds]
    split
    · exact ⟨by simp, .inl rfl⟩
    · simpa using ins xs xs.length (((List.range (n - xs.length)).map gen).map (·.val))
        (!((List.range (n - xs.length)).map gen).any (·.throws)) al (Nat.le_refl _) hx
  | reserve n f => cases hs
  | shrink al => cases hs
  | assignTrivial src al => cases hs
  | assign src left al =>
    simp only [GOp.spec, GOp.adds]
    split
    · rename_i j hj
      have hj' : j < (src.take xs.length).length := by
        obtain ⟨h, _⟩ := List.findIdx?_eq_some_iff_getElem.1 hj
        exact h
      simp only [List.length_take] at hj'
      exact ⟨by simp; omega, .inl rfl⟩
    · have h1 := ins ((src.map (·.val)).take xs.length) ((src.map (·.val)).take xs.length).length ((src.drop xs.length).map (·.val))
        (!(src.drop xs.length).any (·.throws)) al (Nat.le_refl _) (by simp; omega)
      have e : ((src.map (·.val)).take xs.length).length + ((src.drop xs.length).map (·.val)).length = src.length := by simp; omega
      rw [e] at h1
      exact ⟨by omega, h1.2.imp_right fun ⟨a, b, c⟩ => ⟨a, b, by omega⟩⟩

/-- What holds of the totals at every moment, with the size and the capacity. -/
structure CostInv (mn n cap : Nat) (c : Cost) : Prop where
  sizeLe : n ≤ c.added
  movedLe : c.moved ≤ cap
  capLe : (c = ⟨0, 0, c.added⟩ ∧ cap = mn) ∨ (cap ≤ 2 * c.added ∧ 1 ≤ cap)
  timesLe : c.replaced = 0 ∨ 2 ^ c.replaced ≤ 2 * cap

/-- C76: any history of plain operations on any container that starts out empty (with the capacity `mn` that a new object has), with any
pattern of exceptions and failed allocations. All the times the storage is replaced taken together move at most two elements for each
element the user asked to add, and the storage is replaced at most about `log₂` of that number of times. -/
theorem C76_amortised (ops : List (GOp V)) {h : Heap V} {o : O} (r : L.Rep h o [] mn) (hf : Fresh h)
    (hp : PreHist (fun s op => GOp.spec L.cfg s op) (fun s op => op.pre L.cfg s ∧ op.plain = true) ([], mn) ops) :
    ∃ h' o' c thrown, runHist (I.costStep mn) ((h, o), ⟨0, 0, 0⟩) ops = some (((h', o'), c), thrown) ∧
      c.moved ≤ 2 * c.added ∧ c.replaced ≤ Nat.log 2 c.added + 2 ∧ I.size o' ≤ c.added := by
  obtain ⟨⟨⟨h', o'⟩, c⟩, e, ⟨r', _⟩, inv⟩ := runHist_refines
    (R := fun (s : (Heap V × O) × Cost) (a : SV V) => (L.Rep s.1.1 s.1.2 a.1 a.2 ∧ Fresh s.1.1) ∧ CostInv mn a.1.length a.2 s.2)
    (step := I.costStep mn) (spec := fun s op => GOp.spec L.cfg s op)
    (pre := fun s op => op.pre L.cfg s ∧ op.plain = true)
    (by
      rintro ⟨⟨h1, o1⟩, c1⟩ ⟨ys, cap⟩ op ⟨⟨r1, f1⟩, inv⟩ ⟨hp1, hs1⟩
      obtain ⟨h2, o2, e2, r2, fr2, pr⟩ := good_step r1 f1 op hp1
      obtain ⟨q1, q2⟩ := spec_growth r1.2 op hp1 hs1
      refine ⟨((h2, o2), I.addCost op o1 o2 c1), ?_, ⟨r2, fr2.fresh f1⟩, ?_⟩
      · simp only [Impl.costStep, e2]
        cases (GOp.spec L.cfg (ys, cap) op).2 <;> rfl
      · obtain ⟨i1, i2, i3, i4⟩ := inv
        have hsz : I.size o1 = ys.length := r1.1.2.2
        have hy : ys.length ≤ cap := r1.2
        simp only at i1 i2 i3 i4 q1 q2 hy pr
        have hmem : (I.mem h1 o1).1 = cap := by rw [r1.mem]
        simp only [Impl.addCost, hsz]
        generalize (GOp.spec L.cfg (ys, cap) op).1.2 = cap' at q2 pr ⊢
        generalize (GOp.spec L.cfg (ys, cap) op).1.1.length = n' at q1 ⊢
        generalize op.adds ys.length = k at q1 q2 ⊢
        obtain ⟨m, t, a⟩ := c1
        simp only [Cost.mk.injEq] at i1 i2 i3 i4
        split
        · rename_i hpt
          simp only [and_true] at i3
          refine ⟨by simp only; omega, by simp only; omega, ?_, ?_⟩
          · simp only [Cost.mk.injEq, and_true]; omega
          · simp only; generalize 2 ^ t = w at *; omega
        · rename_i hpt
          have hne : cap' ≠ cap := fun e => hpt (pr.1 (by rw [hmem]; exact e))
          obtain ⟨g1, g2, g3⟩ := q2.resolve_left hne
          refine ⟨?_, ?_, ?_, ?_⟩ <;> simp only [Cost.mk.injEq]
          · omega
          · omega
          · omega
          · right
            rw [Nat.pow_succ]
            rcases i4 with h0 | h0
            · subst h0; omega
            · omega)
    ops ((h, o), ⟨0, 0, 0⟩) ([], mn) ⟨⟨r, hf⟩, ⟨Nat.le_refl _, Nat.zero_le _, .inl ⟨rfl, rfl⟩, .inl rfl⟩⟩ hp
  obtain ⟨i1, i2, i3, i4⟩ := inv
  simp only at i1 i2 i3 i4
  refine ⟨h', o', c, _, e, ?_, ?_, ?_⟩
  · rcases i3 with ⟨e1, _⟩ | ⟨e1, _⟩
    · rw [e1]; simp
    · omega
  · rcases i3 with ⟨e1, _⟩ | ⟨e1, _⟩
    · rw [e1]; simp
    · rcases i4 with h0 | h0
      · omega
      · have h2 : 2 ^ c.replaced ≤ 2 ^ 2 * c.added := by omega
        have h3 : c.replaced - 2 ≤ Nat.log 2 c.added := by
          apply Nat.le_log_of_pow_le (by omega)
          by_cases h4 : c.replaced ≤ 2
          · rw [Nat.sub_eq_zero_of_le h4]; simp; omega
          · have : 2 ^ c.replaced = 2 ^ 2 * 2 ^ (c.replaced - 2) := by rw [← Nat.pow_add]; congr 1; omega
            omega
        omega
  · have : I.size o' = _ := r'.1.2.2
    rw [this]; exact i1

/-- Nine `push_back`s, an insertion of three in the middle, an element that throws and an allocation that fails. -/
def growthDemo : List (GOp Nat) :=
  (List.range 9).map (fun k => .push (.lit k false) fun _ => false) ++
    [.insert 2 [⟨20, false⟩, ⟨21, false⟩, ⟨22, false⟩] fun _ => false, .append [⟨30, false⟩, ⟨31, true⟩] fun _ => false,
     .resize 40 (fun k => ⟨k, false⟩) fun _ => true, .pop, .clear]

/-- The hypotheses are met by a new `vector` ... -/
example : (Vec.lawful 0 100 (by decide) : Lawful (vec Nat 0 100) 0 _).Rep ⟨fun _ => none, 0⟩ { ptr := none, cap := 0, size := 0 } [] 0 ∧
    PreHist (fun s op => GOp.spec (vcfg 0 100) s op) (fun s op => op.pre (vcfg 0 100) s ∧ op.plain = true) ([], 0) growthDemo := by
  refine ⟨⟨⟨Or.inl ⟨rfl, rfl, rfl⟩, rfl, rfl⟩, by decide⟩, by decide +kernel⟩

/-- ... the nine elements are moved fifteen times by five replacements; the later operations find room or fail. -/
example : (runHist ((vec Nat 0 100).costStep 0) ((⟨fun _ => none, 0⟩, { ptr := none, cap := 0, size := 0 }), ⟨0, 0, 0⟩) growthDemo).map
    (fun r => (r.1.2, r.2)) = some (⟨15, 5, 42⟩, List.replicate 10 false ++ [true, true, false, false]) := by decide +kernel

/-- ... and by a new `sbo_vector`, which has room for three elements to begin with. -/
example : (Sbo.lawful params3 : Lawful (sbo Nat 64 3 1000) 3 false).Rep ⟨fun _ => none, 0⟩ ⟨Sbo.emptySmall Nat 64 3, 0, false⟩ [] 3 :=
  ⟨⟨Or.inl ⟨_, 0, Sbo.emptySmall_eq params3, by decide⟩, rfl, by decide +kernel⟩, by decide⟩

example : (runHist ((sbo Nat 64 3 1000).costStep 3) ((⟨fun _ => none, 0⟩, ⟨Sbo.emptySmall Nat 64 3, 0, false⟩), ⟨0, 0, 0⟩) growthDemo).map
    (fun r => r.1.2) = some ⟨9, 2, 42⟩ := by decide +kernel

/-- An operation outside the scope: with `reserve` before every `push_back`, every `push_back` has all the elements moved. -/
example : (runHist ((vec Nat 0 100).costStep 0) ((⟨fun _ => none, 0⟩, { ptr := none, cap := 0, size := 0 }), ⟨0, 0, 0⟩)
    ((List.range 9).flatMap fun k => [.reserve (k + 1) false, .push (.lit k false) fun _ => false])).map (fun r => r.1.2) =
    some ⟨36, 9, 9⟩ := by decide +kernel

end Verif.Containers
