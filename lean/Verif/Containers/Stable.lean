import Verif.Containers.Returned
import Verif.Containers.VectorWorld
import Verif.Containers.StaticVector
import Verif.Containers.SboWorld

/-!
# Which addresses of elements stay valid (property C75)

A user keeps iterators, pointers and references to elements while going on using the container. What is promised: an operation for which
there is room leaves every element before the place of the change where it is; an operation that fails leaves every element where it is;
moving or exchanging vectors takes the elements along without moving them. `Impl.addr o k` is the address of the element `k`, `Impl.deref`
reads through an address as the object is then; both are from C62.
-/

namespace Verif.Containers

open Verif Lawful

variable {V O : Type} {I : Impl V O} {mn : Nat} {mkA : Bool} {L : Lawful I mn mkA}

/-- How many of the first elements the user expects to be left alone. -/
def GOp.keeps (xs : List V) : GOp V → Nat
  | .push _ _ | .append _ _ | .appendUnsized _ _ => xs.length
  | .pop => xs.length - 1
  | .insert k _ _ => k
  | .erase a _ => a
  | .eraseToEnd k => k
  | .eraseIf p _ => xs.findIdx p
  | .clear => 0
  | .resize n _ _ => min n xs.length
  | .reserve _ _ | .shrink _ => xs.length
  | .assignTrivial _ _ | .assign _ _ _ => 0

/-- For how many elements the operation needs room. -/
def GOp.needs (xs : List V) : GOp V → Nat
  | .push _ _ => xs.length + 1
  | .append src _ | .appendUnsized src _ | .insert _ src _ => xs.length + src.length
  | .resize n _ _ => n
  | .reserve n _ => n
  | .assignTrivial src _ | .assign src _ _ => src.length
  | .pop | .erase _ _ | .eraseToEnd _ | .eraseIf _ _ | .clear | .shrink _ => 0

/-- The operations that give storage back. -/
def GOp.shrinks : GOp V → Bool
  | .shrink _ => true
  | _ => false

/-- The operations that either succeed or leave the container as it was. -/
def GOp.strong : GOp V → Bool
  | .push _ _ | .append _ _ | .insert _ _ _ | .resize _ _ _ | .reserve _ _ | .shrink _ => true
  | _ => false

theorem specInsert_room {q : Cfg} {s : SV V} {k : Nat} {vs : List V} {nt : Bool} {al : Nat → Bool} (h : s.1.length + vs.length ≤ s.2) :
    (specInsert q s k vs nt al).1.2 = s.2 ∧
      ((specInsert q s k vs nt al).1.1 = s.1 ∨ (specInsert q s k vs nt al).1.1 = s.1.take k ++ vs ++ s.1.drop k) := by
  simp only [specInsert, if_pos h]
  split <;> simp

theorem specPush_room {q : Cfg} {s : SV V} {v : V} {t : Bool} {al : Nat → Bool} (h : s.1.length < s.2) :
    (specPush q s v t al).1.2 = s.2 ∧ ((specPush q s v t al).1.1 = s.1 ∧ (specPush q s v t al).2 = true ∨
      (specPush q s v t al).1.1 = s.1 ++ [v]) := by
  simp only [specPush, if_pos h]
  repeat' split
  all_goals simp

theorem specPushes_room {q : Cfg} : ∀ (src : List (Item V)) (s : SV V) (al : Nat → Bool), s.1.length + src.length ≤ s.2 →
    (specPushes q s src al).1.2 = s.2 ∧ s.1 <+: (specPushes q s src al).1.1 := by
  intro src
  induction src with
  | nil => intro s al _; exact ⟨rfl, List.prefix_rfl⟩
  | cons it its ih =>
    intro s al h
    simp only [List.length_cons] at h
    obtain ⟨h1, h2⟩ := specPush_room (q := q) (v := it.val) (t := it.throws) (al := al) (show s.1.length < s.2 by omega)
    simp only [specPushes]
    rcases h2 with ⟨h2, h3⟩ | h2
    · rw [if_pos h3, h1, h2]; exact ⟨rfl, List.prefix_rfl⟩
    · split
      · rw [h1, h2]; exact ⟨rfl, List.prefix_append _ _⟩
      · obtain ⟨g1, g2⟩ := ih (specPush q s it.val it.throws al).1 (fun k => al (k + 2)) (by rw [h1, h2]; simp; omega)
        exact ⟨g1.trans h1, (List.prefix_append _ _).trans (h2 ▸ g2)⟩

theorem take_insert {xs vs : List V} {k j : Nat} (hk : k ≤ xs.length) (hj : j < k) : (xs.take k ++ vs ++ xs.drop k)[j]? = xs[j]? := by
  rw [List.append_assoc, List.getElem?_append_left (by rw [List.length_take]; omega), List.getElem?_take_of_lt hj]

/-- With room, the first elements of the specification are what they were and the capacity is what it was. -/
theorem spec_room {q : Cfg} {xs : List V} {cap : Nat} (hx : xs.length ≤ cap) (op : GOp V) (hp : op.pre q (xs, cap)) (hs : op.shrinks = false)
    (hn : op.needs xs ≤ cap) : (op.spec q (xs, cap)).1.2 = cap ∧
      ∀ j, j < op.keeps xs → (op.spec q (xs, cap)).1.1[j]? = xs[j]? := by
  have ins : ∀ (k : Nat) (vs : List V) (nt : Bool) (al : Nat → Bool), k ≤ xs.length → xs.length + vs.length ≤ cap →
      (specInsert q (xs, cap) k vs nt al).1.2 = cap ∧ ∀ j, j < k → (specInsert q (xs, cap) k vs nt al).1.1[j]? = xs[j]? := by
    intro k vs nt al hk h
    obtain ⟨h1, h2 | h2⟩ := specInsert_room (q := q) (s := (xs, cap)) (k := k) (vs := vs) (nt := nt) (al := al) h
    · exact ⟨h1, fun j _ => by rw [h2]⟩
    · exact ⟨h1, fun j hj => by rw [h2]; exact take_insert hk hj⟩
  have push : ∀ (v : V) (t : Bool) (al : Nat → Bool), xs.length < cap →
      (specPush q (xs, cap) v t al).1.2 = cap ∧ ∀ j, j < xs.length → (specPush q (xs, cap) v t al).1.1[j]? = xs[j]? := by
    intro v t al h
    obtain ⟨h1, ⟨h2, _⟩ | h2⟩ := specPush_room (q := q) (s := (xs, cap)) (v := v) (t := t) (al := al) h
    · exact ⟨h1, fun j _ => by rw [h2]⟩
    · exact ⟨h1, fun j hj => by rw [h2]; exact List.getElem?_append_left hj⟩
  cases op with
  | push c al =>
    simp only [GOp.needs] at hn
    cases c with
    | lit v t => exact push v t al hn
    | self k t =>
      simp only [GOp.spec, GOp.keeps]
      split
      · exact push _ t al hn
      · exact ⟨rfl, fun _ _ => rfl⟩
  | pop =>
    refine ⟨rfl, fun j hj => ?_⟩
    simp only [GOp.keeps] at hj
    simp only [GOp.spec, List.dropLast_eq_take]
    exact List.getElem?_take_of_lt hj
  | append src al => exact ins xs.length (src.map (·.val)) _ al (Nat.le_refl _) (by simpa [GOp.needs] using hn)
  | appendUnsized src al =>
    simp only [GOp.spec]
    split
    · obtain ⟨h1, h2⟩ := specPushes_room (q := q) src (xs, cap) al (by simpa [GOp.needs] using hn)
      refine ⟨h1, fun j hj => ?_⟩
      obtain ⟨t, ht⟩ := h2
      rw [← ht]; exact List.getElem?_append_left hj
    · exact ins xs.length (src.map (·.val)) _ al (Nat.le_refl _) (by simpa [GOp.needs] using hn)
  | insert k src al => exact ins k (src.map (·.val)) _ al hp.1 (by simpa [GOp.needs] using hn)
  | erase a b =>
    have hab : a ≤ b ∧ b ≤ xs.length := hp
    refine ⟨rfl, fun j hj => ?_⟩
    simp only [GOp.keeps] at hj
    simp only [GOp.spec]
    rw [List.getElem?_append_left (by rw [List.length_take]; omega), List.getElem?_take_of_lt hj]
  | eraseToEnd k => exact ⟨rfl, fun j hj => List.getElem?_take_of_lt hj⟩
  | eraseIf p mv =>
    refine ⟨rfl, fun j hj => ?_⟩
    simp only [GOp.keeps] at hj
    simp only [GOp.spec]
    have e : xs = xs.take (xs.findIdx p) ++ xs.drop (xs.findIdx p) := (List.take_append_drop _ _).symm
    have hall : (xs.take (xs.findIdx p)).filter (fun v => !p v) = xs.take (xs.findIdx p) := by
      rw [List.filter_eq_self]
      intro a ha
      obtain ⟨i, hi, rfl⟩ := List.mem_iff_getElem.1 ha
      rw [List.length_take] at hi
      rw [List.getElem_take]
      have := List.not_of_lt_findIdx (p := p) (xs := xs) (i := i) (by omega)
      simpa using this
    have hlen : j < (xs.take (xs.findIdx p)).length := by
      rw [List.length_take]
      have := List.findIdx_le_length (p := p) (xs := xs)
      omega
    conv_lhs => rw [e, List.filter_append, hall]
    rw [List.getElem?_append_left hlen, List.getElem?_take_of_lt hj]
  | clear => exact ⟨rfl, fun j hj => absurd hj (Nat.not_lt_zero _)⟩
  | resize n gen al =>
    simp only [GOp.needs] at hn
    simp only [GOp.spec, GOp.keeps]
    by_cases h1 : n ≤ xs.length
    · rw [if_pos h1]
      exact ⟨rfl, fun j hj => List.getElem?_take_of_lt (by omega)⟩
    · rw [if_neg h1]
      obtain ⟨g1, g2 | g2⟩ := specInsert_room (q := q) (s := (xs, cap)) (k := xs.length)
        (vs := ((List.range (n - xs.length)).map gen).map (·.val)) (nt := !((List.range (n - xs.length)).map gen).any (·.throws)) (al := al)
        (by simp; omega)
      · exact ⟨g1, fun j _ => by rw [g2]⟩
      · refine ⟨g1, fun j hj => ?_⟩
        rw [g2]
        exact take_insert (Nat.le_refl _) (by omega)
  | reserve n f =>
    simp only [GOp.needs] at hn
    simp only [GOp.spec, if_pos hn]
    exact ⟨trivial, fun _ _ => trivial⟩
  | shrink al => cases hs
  | assignTrivial src al =>
    simp only [GOp.needs] at hn
    refine ⟨?_, fun j hj => absurd hj (Nat.not_lt_zero _)⟩
    simp only [GOp.spec]
    repeat' split
    all_goals first | rfl | (simp only; omega)
  | assign src left al =>
    simp only [GOp.needs] at hn
    refine ⟨?_, fun j hj => absurd hj (Nat.not_lt_zero _)⟩
    simp only [GOp.spec]
    split
    · rfl
    · exact (specInsert_room (by simp; omega)).1

/-- An operation that may fail as a whole leaves the specification as it was. -/
theorem spec_strong {q : Cfg} {s : SV V} (op : GOp V) (hs : op.strong = true) (he : (op.spec q s).2 = true) : (op.spec q s).1 = s := by
  have ins : ∀ (k : Nat) (vs : List V) (nt : Bool) (al : Nat → Bool), (specInsert q s k vs nt al).2 = true → (specInsert q s k vs nt al).1 = s := by
    intro k vs nt al
    simp only [specInsert]
    repeat' split
    all_goals simp
  have push : ∀ (v : V) (t : Bool) (al : Nat → Bool), (specPush q s v t al).2 = true → (specPush q s v t al).1 = s := by
    intro v t al
    simp only [specPush]
    repeat' split
    all_goals simp
  cases op <;> simp only [GOp.strong, Bool.false_eq_true] at hs
  case push c al =>
    cases c with
    | lit v t => exact push v t al he
    | self k t =>
      simp only [GOp.spec] at he ⊢
      split
      · rename_i v hv; rw [hv] at he; exact push v t al he
      · rfl
  case append src al => exact ins _ _ _ al he
  case insert k src al => exact ins _ _ _ al he
  case resize n gen al =>
    simp only [GOp.spec] at he ⊢
    split
    · rename_i h; rw [if_pos h] at he; cases he
    · rename_i h; rw [if_neg h] at he; exact ins _ _ _ al he
  case reserve n f =>
    revert he
    simp only [GOp.spec]
    repeat' split
    all_goals simp
  case shrink al =>
    revert he
    simp only [GOp.spec]
    repeat' split
    all_goals simp

/-- Reading through an address taken before, when the storage is the same. -/
theorem deref_before {h h' : Heap V} {o o' : O} {xs ys : List V} {cap : Nat} (r : L.Rep h o xs cap) (r' : L.Rep h' o' ys cap)
    (hp : PtrRule I h o o' cap) (k : Nat) : I.deref h' o' (I.addr o k) = ys[k]? := by
  have e : I.addr o k = I.addr o' k := by
    simp only [Impl.addr]
    rw [hp.1 (by rw [r.mem])]
  rw [e]; exact deref_addr r' k

/-- C75, one operation on a contiguous container (a vector, a small-buffer vector, a `static_vector`), whether or not it throws, whatever
allocation fails: if there is room for what it needs, the storage is the same and the addresses of the elements before the place of the
change still refer to them; if it throws and is one of those that succeed or do nothing, that is so for all elements. -/
theorem C75_addresses {h : Heap V} {o : O} {xs : List V} {cap : Nat} (r : L.Rep h o xs cap) (hf : Fresh h) (op : GOp V)
    (hp : op.pre L.cfg (xs, cap)) :
    ∃ h' o' thrown ys cap', I.step mn h o op = Out.of thrown (h', o') ∧ L.Rep h' o' ys cap' ∧
      (op.shrinks = false → op.needs xs ≤ cap →
        cap' = cap ∧ I.ptr o' = I.ptr o ∧ ∀ k < op.keeps xs, I.deref h' o' (I.addr o k) = xs[k]?) ∧
      (thrown = true → op.strong = true →
        cap' = cap ∧ I.ptr o' = I.ptr o ∧ ∀ k < xs.length, I.deref h' o' (I.addr o k) = xs[k]?) := by
  obtain ⟨h', o', e, r', _, pr⟩ := good_step r hf op hp
  refine ⟨h', o', _, _, _, e, r', fun hs hn => ?_, fun ht hs => ?_⟩
  · obtain ⟨h1, h2⟩ := spec_room r.2 op hp hs hn
    rw [h1] at r' pr
    exact ⟨h1, pr.1 (by rw [r.mem]), fun k hk => by rw [deref_before r r' pr k, h2 k hk]⟩
  · have h1 := spec_strong op hs ht
    rw [h1] at r' pr ⊢
    exact ⟨rfl, pr.1 (by rw [r.mem]), fun k _ => deref_before r r' pr k⟩

/-- An operation that leaves the element `k` alone and for which there is room. -/
def GOp.spares (k : Nat) (s : SV V) (op : GOp V) : Prop := op.shrinks = false ∧ op.needs s.1 ≤ s.2 ∧ k < op.keeps s.1

/-- C75, any history: an address of an element taken at some moment refers to that element as long as every operation has room (after
`reserve`, say) and changes only what comes after the element. Exceptions thrown by elements and failing allocations do not matter. -/
theorem C75_history (ops : List (GOp V)) {h : Heap V} {o : O} {xs : List V} {cap : Nat} (r : L.Rep h o xs cap) (hf : Fresh h) {k : Nat}
    (hk : k < xs.length)
    (hp : PreHist (fun s op => GOp.spec L.cfg s op) (fun s op => op.pre L.cfg s ∧ op.spares k s) (xs, cap) ops) :
    ∃ h' o' thrown, runHist (fun s op => I.step mn s.1 s.2 op) (h, o) ops = some ((h', o'), thrown) ∧
      I.ptr o' = I.ptr o ∧ I.deref h' o' (I.addr o k) = xs[k]? ∧ xs[k]? ≠ none := by
  obtain ⟨⟨h', o'⟩, e, ys, ⟨h1, h2, h3⟩, h4, h5⟩ := runHist_refines
    (R := fun (s : Heap V × O) (a : SV V) => ∃ ys, (L.Rep s.1 s.2 a.1 a.2 ∧ a = (ys, cap) ∧ Fresh s.1) ∧ I.ptr s.2 = I.ptr o ∧ ys[k]? = xs[k]?)
    (step := fun s op => I.step mn s.1 s.2 op) (spec := fun s op => GOp.spec L.cfg s op)
    (pre := fun s op => op.pre L.cfg s ∧ op.spares k s)
    (by
      rintro ⟨h1, o1⟩ ⟨ys, c⟩ op ⟨ys', ⟨r1, e1, f1⟩, p1, g1⟩ ⟨hp1, hs1, hs2, hs3⟩
      obtain ⟨rfl, rfl⟩ := Prod.mk.inj e1
      obtain ⟨h2, o2, e2, r2, f2, pr⟩ := good_step r1 f1 op hp1
      obtain ⟨q1, q2⟩ := spec_room r1.2 op hp1 hs1 hs2
      refine ⟨(h2, o2), e2, (GOp.spec L.cfg (ys, c) op).1.1, ⟨r2, Prod.ext rfl q1, f2.fresh f1⟩, ?_, (q2 k hs3).trans g1⟩
      rw [q1] at pr
      exact (pr.1 (by rw [r1.mem])).trans p1)
    ops (h, o) (xs, cap) ⟨xs, ⟨r, rfl, hf⟩, rfl, rfl⟩ hp
  refine ⟨h', o', _, e, h4, ?_, by simp [hk]⟩
  rw [h2] at h1
  have : I.addr o k = I.addr o' k := by simp only [Impl.addr]; rw [h4]
  rw [this, deref_addr h1 k]
  exact h5

/-! ### Moving and exchanging vectors -/

/-- C75, vectors: move construction, move assignment and swap leave the elements where they are, so that an address taken before refers to
the same element, which now belongs to the other vector. (`o` is any vector, moved from or not, other than `t`.) -/
theorem C75_move_swap {mn mx : Nat} {hmm : mn ≤ mx} {h : Heap V} {o t : Hdr V} {a : VA V} {xs : List V} {cap : Nat} {nul : Bool}
    (v : vinv mn mx hmm h o a) (vt : vinv mn mx hmm h t (.live xs cap nul)) (hap : ∀ b, (vec V mn mx).own o b → ¬ (vec V mn mx).own t b) (k : Nat) :
    (∃ h' o' t', Vec.bin mn mx .move h o t = .ok (h', o', t') ∧ (vec V mn mx).deref h' o' ((vec V mn mx).addr t k) = xs[k]?) ∧
    (∃ h' o' t', Vec.bin mn mx .swap h o t = .ok (h', o', t') ∧ (vec V mn mx).deref h' o' ((vec V mn mx).addr t k) = xs[k]? ∧
      ∀ ys c n, a = .live ys c n → ∀ j, (vec V mn mx).deref h' t' ((vec V mn mx).addr o j) = ys[j]?) ∧
    (∃ h' o' t', Vec.ctorFrom mn mx .move h t = .ok (h', o', t') ∧ (vec V mn mx).deref h' o' ((vec V mn mx).addr t k) = xs[k]?) := by
  refine ⟨?_, ⟨h, t, o, rfl, deref_addr (L := Vec.lawful mn mx hmm) vt.1 k, ?_⟩, ⟨h, t, _, rfl, deref_addr (L := Vec.lawful mn mx hmm) vt.1 k⟩⟩
  · obtain ⟨h1, o1, h2, e1, e2, fr⟩ := Vec.inv_dtor v
    refine ⟨h2, t, { ptr := none, cap := t.cap, size := 0 }, ?_, ?_⟩
    · show (match Vec.moveAssign h o t with | none => Out.ub | some r => .ok r) = _
      simp only [Vec.moveAssign, e1, e2]
    · have vt' := Vec.inv_keep vt (fun c hc => fr.keep c (fun q => hap c q hc) id)
      exact deref_addr (L := Vec.lawful mn mx hmm) vt'.1 k
  · rintro ys c n rfl j
    exact deref_addr (L := Vec.lawful mn mx hmm) v.1 j

/-! ### Examples -/

/-- A program with an address: three elements in a vector of capacity five; two `push_back`s, an `insert` behind, one `pop_back`; the address
of the element 1 stays valid. The hypotheses of `C75_history` hold for it. -/
example :
    (aliasHeap 6).2.size = 3 ∧
    PreHist (fun s op => GOp.spec (vcfg 0 9) s op) (fun s op => op.pre (vcfg 0 9) s ∧ op.spares 1 s) ([1, 2, 3], 6)
      [.push (.lit 4 false) fun _ => false, .insert 2 [⟨7, true⟩] fun _ => false, .insert 2 [⟨7, false⟩, ⟨8, false⟩] fun _ => false, .pop] ∧
    (match runHist (fun (s : Heap Nat × Hdr Nat) op => (vec Nat 0 9).step 0 s.1 s.2 op) (aliasHeap 6)
        [.push (.lit 4 false) fun _ => false, .insert 2 [⟨7, true⟩] fun _ => false, .insert 2 [⟨7, false⟩, ⟨8, false⟩] fun _ => false, .pop] with
      | some ((h', o'), thrown) => decide ((vec Nat 0 9).deref h' o' ((vec Nat 0 9).addr (aliasHeap 6).2 1) = some 2 ∧ thrown = [false, true, false, false])
      | none => false) = true := by
  refine ⟨rfl, ?_, rfl⟩
  simp only [PreHist, GOp.spares, GOp.pre, pushPre]
  decide

/-- Without room the address no longer refers to anything. -/
example :
    (match (vec Nat 0 9).step 0 (aliasHeap 3).1 (aliasHeap 3).2 (.push (.lit 4 false) fun _ => false) with
      | .ok (h', o') => decide ((vec Nat 0 9).deref h' o' ((vec Nat 0 9).addr (aliasHeap 3).2 1) = none ∧
          (vec Nat 0 9).deref h' o' ((vec Nat 0 9).addr o' 1) = some 2)
      | _ => false) = true := rfl

end Verif.Containers
