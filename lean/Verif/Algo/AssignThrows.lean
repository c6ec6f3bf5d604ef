import Verif.Algo.UniqueThrowsProps

/-!
# Removing elements when an assignment throws (property C114)

`erase_if` of containers in an array (`algorithms/erase.cpp` 99-112) and `unique` (`algorithms/unique.cpp` 42-101) move elements towards the front
by assignment. The assignment may throw, leaving the object that is assigned to and the one that is moved from with anything; the function
object may throw too. As in `Calls.lean`, function objects may have state.
-/

namespace Verif.Algo.Assigning

open Verif Mem Prog

variable {α Q R R' τ : Type}

/-- What an algorithm does from some moment on. -/
inductive MProg (α Q R : Type) where
  | ret (r : R)
  | stuck
  | get (i : Nat) (k : α → MProg α Q R)
  | ask (q : Q) (k : Bool → MProg α Q R)
  | assign (dst src : Nat) (k : MProg α Q R)

/-- The assignments of elements: `none` for one that succeeds, or what one that throws leaves in the object that is assigned to and in the other one. -/
abbrev Assigns (α : Type) := Nat → Option (Obj α × Obj α)

/-- One `*dst = *src` or `*dst = std::move(*src)`. -/
def assignX (a : Option (Obj α × Obj α)) (mk : MoveKind) (m : Mem (Obj α)) (dst src : Nat) : Out (Mem (Obj α)) :=
  match a with
  | none =>
    match assignFrom mk m dst src with
    | none => .ub
    | some m' => .ok m'
  | some (x, y) =>
    match vals m src, m dst with
    | some _, some _ => .exn (upd (upd m dst (some x)) src (some y))
    | _, _ => .ub

namespace MProg

/-- Go on with what the first part returned. -/
def bind : MProg α Q R → (R → MProg α Q R') → MProg α Q R'
  | ret r, g => g r
  | stuck, _ => stuck
  | get i k, g => get i fun v => (k v).bind g
  | ask q k, g => ask q fun b => (k b).bind g
  | assign i j k, g => assign i j (k.bind g)

/-- How a run ends: with a result, with an exception of the function object, with an exception of an assignment, or in undefined behaviour. -/
inductive Ended (α R : Type) where
  | returned (r : R) (m : Mem (Obj α))
  | asked (m : Mem (Obj α))
  | assigned (m : Mem (Obj α))
  | ub

/-- A run. `t` is the state of the function object, `j` the number of assignments so far. -/
def exec (f : τ → Q → Option (Bool × τ)) (mk : MoveKind) (as : Assigns α) : MProg α Q R → τ → Nat → Mem (Obj α) → Ended α R
  | ret r, _, _, m => .returned r m
  | stuck, _, _, _ => .ub
  | get i k, t, j, m =>
    match vals m i with
    | none => .ub
    | some v => (k v).exec f mk as t j m
  | ask q k, t, j, m =>
    match f t q with
    | none => .asked m
    | some (b, t') => (k b).exec f mk as t' j m
  | assign dst src k, t, j, m =>
    match assignX (as j) mk m dst src with
    | .ub => .ub
    | .exn m' => .assigned m'
    | .ok m' => k.exec f mk as t (j + 1) m'

/-- The same algorithm if no assignment throws, as a tree of calls of the function object. -/
def toA (mk : MoveKind) : MProg α Q R → Mem (Obj α) → Prog (Mem (Obj α)) Q (Mem (Obj α) × R)
  | ret r, m => pure (m, r)
  | stuck, _ => .lift none
  | get i k, m =>
    match vals m i with
    | none => .lift none
    | some v => (k v).toA mk m
  | ask q k, m => Ask.ask m q fun b => (k b).toA mk m
  | assign i j k, m =>
    match assignFrom mk m i j with
    | none => .lift none
    | some m' => k.toA mk m'

end MProg

/-! ## The algorithms -/

/-- The loop of `find_if` with `n` elements to go (`algorithms/find.cpp` 28-33); the answer `stop` ends it. -/
def findIfLoopM (q : α → Q) (stop : Bool) : Nat → Nat → MProg α Q Nat
  | 0, first => .ret first
  | n + 1, first => .get first fun v => .ask (q v) fun b => if b = stop then .ret first else findIfLoopM q stop n (first + 1)

/-- `find_if` (`algorithms/find.cpp` 28-33); with `stop = false` that of a negated function object. -/
def findIfM (q : α → Q) (stop : Bool) (first last : Nat) : MProg α Q Nat := if first ≤ last then findIfLoopM q stop (last - first) first else .stuck

/-- The loop of `erase_if` with `k` elements left (`algorithms/erase.cpp` 105-112). -/
def eraseIfLoopM : Nat → Nat → Nat → MProg α α Nat
  | 0, newLast, _ => .ret newLast
  | k + 1, newLast, it => .get it fun v => .ask v fun b =>
    if b then eraseIfLoopM k newLast (it + 1) else .assign newLast it (eraseIfLoopM k (newLast + 1) (it + 1))

/-- `erase_if` up to `erase_to_end` (`algorithms/erase.cpp` 99-112). -/
def eraseIfM (first last : Nat) : MProg α α Nat :=
  (findIfM id true first last).bind fun newLast => if newLast = last then .ret newLast else eraseIfLoopM (last - (newLast + 1)) newLast (newLast + 1)

/-- `unique_common` (`algorithms/unique.cpp` 42-52) with `k` elements of the input left, from `it` on. -/
def uniqueCommonM : Nat → Nat → Nat → MProg α (α × α) Nat
  | 0, _, out => .ret (out + 1)
  | k + 1, it, out => .get out fun o => .get it fun x => .ask (o, x) fun b =>
    if b then uniqueCommonM k (it + 1) out else .assign (out + 1) it (uniqueCommonM k (it + 1) (out + 1))

/-- `unique_copy` (`algorithms/unique.cpp` 54-65). -/
def uniqueCopyM (first last out : Nat) : MProg α (α × α) Nat :=
  if first = last then .ret out else .assign out first (uniqueCommonM (last - first - 1) (first + 1) out)

/-- The loop of `find_first_equal` (`algorithms/unique.cpp` 75-80), with `k` elements left. -/
def findFirstEqualLoopM : Nat → Nat → Nat → MProg α (α × α) Nat
  | 0, _, first => .ret first
  | k + 1, previous, first => .get previous fun x => .get first fun y => .ask (x, y) fun b =>
    if b then .ret first else findFirstEqualLoopM k first (first + 1)

/-- `find_first_equal` (`algorithms/unique.cpp` 68-82). -/
def findFirstEqualM (first last : Nat) : MProg α (α × α) Nat := if first = last then .ret first else findFirstEqualLoopM (last - first - 1) first (first + 1)

/-- `unique` (`algorithms/unique.cpp` 85-101). -/
def uniqueM (first last : Nat) : MProg α (α × α) Nat :=
  (findFirstEqualM first last).bind fun e =>
    if e = last then .ret e
    else .get e fun v => (findIfM (fun x => (v, x)) false (e + 1) last).bind fun other =>
      if other = last then .ret e else .assign e other (uniqueCommonM (last - (other + 1)) (other + 1) e)

/-! ## Without throwing assignments, these are the algorithms of `UniqueThrows.lean` -/

theorem MProg.toA_bind (mk : MoveKind) (g : R → MProg α Q R') : ∀ (p : MProg α Q R) (m : Mem (Obj α)),
    (p.bind g).toA mk m = Prog.bind (p.toA mk m) fun r => (g r.2).toA mk r.1
  | ret _, _ => rfl
  | stuck, _ => rfl
  | get i k, m => by
    simp only [MProg.bind, toA]
    cases vals m i with
    | none => rfl
    | some v => exact toA_bind mk g (k v) m
  | ask q k, m => by
    simp only [MProg.bind, toA, Prog.bind, Ask.bind]
    congr 1
    funext b
    exact toA_bind mk g (k b) m
  | assign i j k, m => by
    simp only [MProg.bind, toA]
    cases assignFrom mk m i j with
    | none => rfl
    | some m' => exact toA_bind mk g k m'

/-- Keeping the memory. -/
def keeping {S : Type} (m : S) (a : Prog S Q R) : Prog S Q (S × R) := Prog.bind a fun r => pure (m, r)

theorem bind_keeping' {S : Type} (m : S) (g : S × R → Prog S Q R') : ∀ a : Ask S Q (Option R), Prog.bind (keeping m a) g = Prog.bind a fun r => g (m, r)
  | .done none => rfl
  | .done (some _) => rfl
  | .ask s q k => by
    simp only [keeping, Prog.bind, Ask.bind]
    congr 1
    funext b
    exact bind_keeping' m g (k b)

theorem bind_keeping {S : Type} (m : S) (g : S × R → Prog S Q R') (a : Prog S Q R) : Prog.bind (keeping m a) g = Prog.bind a fun r => g (m, r) :=
  bind_keeping' m g a

theorem findIfLoopM_toA (mk : MoveKind) (q : α → Q) (m : Mem (Obj α)) : ∀ n first,
    (findIfLoopM q true n first).toA mk m = keeping m (findIfLoopA (vals m) (fun x => call m (q x)) n first)
  | 0, _ => rfl
  | n + 1, first => by
    simp only [findIfLoopM, MProg.toA, findIfLoopA, keeping]
    cases hm : vals m first with
    | none => rfl
    | some v =>
      show Ask.ask m (q v) _ = Ask.ask m (q v) _
      congr 1
      funext b
      cases b with
      | true => rfl
      | false => exact findIfLoopM_toA mk q m n (first + 1)

theorem findIfNotLoopM_toA (mk : MoveKind) (q : α → Q) (m : Mem (Obj α)) : ∀ n first,
    (findIfLoopM q false n first).toA mk m = keeping m (findIfLoopA (vals m) (notFn fun x => call m (q x)) n first)
  | 0, _ => rfl
  | n + 1, first => by
    simp only [findIfLoopM, MProg.toA, findIfLoopA, keeping]
    cases hm : vals m first with
    | none => rfl
    | some v =>
      show Ask.ask m (q v) _ = Ask.ask m (q v) _
      congr 1
      funext b
      cases b with
      | false => rfl
      | true => exact findIfNotLoopM_toA mk q m n (first + 1)

theorem eraseIfLoopM_toA (mk : MoveKind) : ∀ k (m : Mem (Obj α)) newLast it, (eraseIfLoopM k newLast it).toA mk m = eraseIfLoopA mk k m newLast it
  | 0, _, _, _ => rfl
  | k + 1, m, newLast, it => by
    simp only [eraseIfLoopM, eraseIfLoopA, MProg.toA]
    cases hm : vals m it with
    | none => rfl
    | some v =>
      show Ask.ask m v _ = Ask.ask m v _
      congr 1
      funext b
      cases b with
      | true => exact eraseIfLoopM_toA mk k m newLast (it + 1)
      | false =>
        show (match assignFrom mk m newLast it with | none => lift none | some m' => _) = Prog.bind (lift (assignFrom mk m newLast it)) _
        cases hs : assignFrom mk m newLast it with
        | none => rfl
        | some m' => exact eraseIfLoopM_toA mk k m' _ _

/-- If no assignment throws, the program is the `erase_if` of C80. -/
theorem eraseIfM_toA (mk : MoveKind) (m : Mem (Obj α)) (first last : Nat) : (eraseIfM first last).toA mk m = eraseIfA mk m first last := by
  simp only [eraseIfM, eraseIfA]
  have h : (findIfM (Q := α) id true first last).toA mk m = keeping m (findIfA (vals m) (fun v => call m v) first last) := by
    unfold findIfM findIfA
    split
    · exact findIfLoopM_toA mk id m _ _
    · rfl
  rw [MProg.toA_bind, h]
  show Prog.bind (keeping m (findIfA (vals m) (fun v => call m v) first last)) _ = Prog.bind _ _
  rw [bind_keeping]
  congr 1
  funext newLast
  dsimp only
  split
  · rfl
  · exact eraseIfLoopM_toA mk _ m _ _

theorem uniqueCommonM_toA (mk : MoveKind) : ∀ k (m : Mem (Obj α)) it out,
    (uniqueCommonM k it out).toA mk m = uniqueCommonA mk (fun m a b => call m (a, b)) k m it out
  | 0, _, _, _ => rfl
  | k + 1, m, it, out => by
    simp only [uniqueCommonM, uniqueCommonA, MProg.toA]
    cases ho : vals m out with
    | none => rfl
    | some o =>
      cases hm : vals m it with
      | none => rfl
      | some x =>
        show Ask.ask m (o, x) _ = Ask.ask m (o, x) _
        congr 1
        funext b
        cases b with
        | true => exact uniqueCommonM_toA mk k m (it + 1) out
        | false =>
          show (match assignFrom mk m (out + 1) it with | none => lift none | some m' => _) = Prog.bind (lift (assignFrom mk m (out + 1) it)) _
          cases hs : assignFrom mk m (out + 1) it with
          | none => rfl
          | some m' => exact uniqueCommonM_toA mk k m' _ _

/-- If no assignment throws, the program is the `unique_copy` of C80. -/
theorem uniqueCopyM_toA (mk : MoveKind) (m : Mem (Obj α)) (first last out : Nat) :
    (uniqueCopyM first last out).toA mk m = uniqueCopyA mk (fun m a b => call m (a, b)) m first last out := by
  unfold uniqueCopyM uniqueCopyA
  split
  · rfl
  · show (match assignFrom mk m out first with | none => lift none | some m' => _) = Prog.bind (lift (assignFrom mk m out first)) _
    cases hs : assignFrom mk m out first with
    | none => rfl
    | some m' => exact uniqueCommonM_toA mk _ m' _ _

theorem findFirstEqualLoopM_toA (mk : MoveKind) (m : Mem (Obj α)) : ∀ k previous first,
    (findFirstEqualLoopM k previous first).toA mk m = keeping m (findFirstEqualLoopA (fun a b => call m (a, b)) (vals m) k previous first)
  | 0, _, _ => rfl
  | k + 1, previous, first => by
    simp only [findFirstEqualLoopM, findFirstEqualLoopA, MProg.toA, keeping]
    cases ho : vals m previous with
    | none => rfl
    | some o =>
      cases hm : vals m first with
      | none => rfl
      | some x =>
        show Ask.ask m (o, x) _ = Ask.ask m (o, x) _
        congr 1
        funext b
        cases b with
        | true => rfl
        | false => exact findFirstEqualLoopM_toA mk m k first (first + 1)

/-- If no assignment throws, the program is the `unique` of C80. -/
theorem uniqueM_toA (mk : MoveKind) (m : Mem (Obj α)) (first last : Nat) :
    (uniqueM first last).toA mk m = uniqueA mk (fun m a b => call m (a, b)) m first last := by
  have h1 : (findFirstEqualM (α := α) first last).toA mk m = keeping m (findFirstEqualA (fun a b => call m (a, b)) (vals m) first last) := by
    unfold findFirstEqualM findFirstEqualA
    split
    · rfl
    · exact findFirstEqualLoopM_toA mk m _ _ _
  have h2 : ∀ (v : α) (e : Nat), (findIfM (α := α) (fun x => (v, x)) false (e + 1) last).toA mk m = keeping m (findIfA (vals m) (notFn fun x => call m (v, x)) (e + 1) last) := by
    intro v e
    unfold findIfM findIfA
    split
    · exact findIfNotLoopM_toA mk _ m _ _
    · rfl
  simp only [uniqueM, uniqueA]
  rw [MProg.toA_bind, h1]
  show Prog.bind (keeping m (findFirstEqualA (fun a b => call m (a, b)) (vals m) first last)) _ = Prog.bind _ _
  rw [bind_keeping]
  congr 1
  funext e
  dsimp only
  split
  · rfl
  · simp only [MProg.toA]
    cases hv : vals m e with
    | none => rfl
    | some v =>
      show _ = Prog.bind (findIfA (vals m) (notFn fun x => call m (v, x)) (e + 1) last) _
      dsimp only
      rw [MProg.toA_bind, h2, bind_keeping]
      congr 1
      funext other
      dsimp only
      split
      · rfl
      · show (match assignFrom mk m e other with | none => lift none | some m' => _) = Prog.bind (lift (assignFrom mk m e other)) _
        cases hs : assignFrom mk m e other with
        | none => rfl
        | some m' => exact uniqueCommonM_toA mk _ m' _ _

/-- If no assignment throws, a run of the program is one of the tree. -/
theorem MProg.exec_toA (f : τ → Q → Option (Bool × τ)) (mk : MoveKind) : ∀ (p : MProg α Q R) (t : τ) (j : Nat) (m : Mem (Obj α)),
    match p.exec f mk (fun _ => none) t j m with
    | .returned r m' => (Ask.exec f t (p.toA mk m)).1 = .returned (some (m', r))
    | .asked m' => (Ask.exec f t (p.toA mk m)).1 = .threw m'
    | .assigned _ => False
    | .ub => (Ask.exec f t (p.toA mk m)).1 = .returned none
  | ret r, t, j, m => rfl
  | stuck, t, j, m => rfl
  | get i k, t, j, m => by
    simp only [exec, toA]
    cases vals m i with
    | none => rfl
    | some v => exact exec_toA f mk (k v) t j m
  | ask q k, t, j, m => by
    simp only [exec, toA]
    unfold Ask.exec
    cases f t q with
    | none => rfl
    | some bt =>
      obtain ⟨b, t'⟩ := bt
      exact exec_toA f mk (k b) t' j m
  | assign dst src k, t, j, m => by
    simp only [exec, toA, assignX]
    cases assignFrom mk m dst src with
    | none => rfl
    | some m' => exact exec_toA f mk k t (j + 1) m'

/-! ## Whatever throws, the objects that existed still do -/

theorem assignX_live {a : Option (Obj α × Obj α)} {mk : MoveKind} {m : Mem (Obj α)} {dst src : Nat} :
    match assignX a mk m dst src with
    | .ok m' | .exn m' => SameLive m m'
    | .ub => True := by
  have upds : ∀ (i j : Nat) (x y : Obj α), m i ≠ none → m j ≠ none → SameLive m (upd (upd m i (some x)) j (some y)) := by
    intro i j x y hi hj a
    by_cases e1 : a = j
    · subst e1; simp [upd_same, hj]
    · rw [upd_other _ _ e1]
      by_cases e2 : a = i
      · subst e2; simp [upd_same, hi]
      · rw [upd_other _ _ e2]
  unfold assignX
  cases a with
  | none =>
    dsimp only
    unfold assignFrom
    cases hs : m src with
    | none => trivial
    | some o =>
      cases o with
      | moved => trivial
      | val v =>
        cases hd : m dst with
        | none => trivial
        | some d =>
          cases mk with
          | keep =>
            intro a
            by_cases e : a = dst
            · subst e; simp [upd_same, hd]
            · simp only [upd_other _ _ e]
          | clear => exact upds src dst _ _ (by simp [hs]) (by simp [hd])
          | clearSelf => exact upds dst src _ _ (by simp [hd]) (by simp [hs])
  | some xy =>
    obtain ⟨x, y⟩ := xy
    dsimp only
    cases hs : vals m src with
    | none => trivial
    | some v =>
      cases hd : m dst with
      | none => trivial
      | some d => exact upds dst src x y (by simp [hd]) (vals_live hs)

/-- **C114**, any algorithm that reads, calls and assigns: whatever throws, exactly the objects that existed still do. -/
theorem C114_alive (f : τ → Q → Option (Bool × τ)) (mk : MoveKind) (as : Assigns α) : ∀ (p : MProg α Q R) (t : τ) (j : Nat) (m : Mem (Obj α)),
    match p.exec f mk as t j m with
    | .returned _ m' | .asked m' | .assigned m' => SameLive m m'
    | .ub => True
  | .ret _, _, _, _ => fun _ => Iff.rfl
  | .stuck, _, _, _ => trivial
  | .get i k, t, j, m => by
    simp only [MProg.exec]
    cases vals m i with
    | none => trivial
    | some v => exact C114_alive f mk as (k v) t j m
  | .ask q k, t, j, m => by
    simp only [MProg.exec]
    cases f t q with
    | none => exact fun _ => Iff.rfl
    | some bt => exact C114_alive f mk as (k bt.1) bt.2 j m
  | .assign dst src k, t, j, m => by
    simp only [MProg.exec]
    have h := assignX_live (a := as j) (mk := mk) (m := m) (dst := dst) (src := src)
    cases e : assignX (as j) mk m dst src with
    | ub => trivial
    | exn m' => rw [e] at h; exact h
    | ok m' =>
      rw [e] at h
      have h2 := C114_alive f mk as k t (j + 1) m'
      dsimp only at h ⊢
      cases e2 : k.exec f mk as t (j + 1) m' with
      | ub => trivial
      | returned r m'' => rw [e2] at h2; exact h.trans h2
      | asked m'' => rw [e2] at h2; exact h.trans h2
      | assigned m'' => rw [e2] at h2; exact h.trans h2

/-! ## Where the elements are -/

/-- The elements `kept` from `first` on, `gap` objects with anything, the elements `rest`. Nothing else has changed. -/
structure Stage (m0 m : Mem (Obj α)) (first : Nat) (kept : List α) (gap : Nat) (rest : List α) : Prop where
  front : (vals m).Seg first kept
  back : (vals m).Seg (first + kept.length + gap) rest
  live : SameLive m0 m
  off : m0.SameOff m (InRange first (kept.length + gap + rest.length))

/-- After an assignment has thrown: the elements `kept` from `first` on, what it has left of the object it assigned to, `gap` objects with anything, what it
has left of the object it assigned from, the elements `rest`. Nothing else has changed. -/
structure Torn (m0 m : Mem (Obj α)) (first : Nat) (kept : List α) (x : Obj α) (gap : Nat) (y : Obj α) (rest : List α) : Prop where
  front : (vals m).Seg first kept
  target : m (first + kept.length) = some x
  source : m (first + kept.length + 1 + gap) = some y
  back : (vals m).Seg (first + kept.length + 1 + gap + 1) rest
  live : SameLive m0 m
  off : m0.SameOff m (InRange first (kept.length + 1 + gap + 1 + rest.length))

theorem Stage.start {m : Mem (Obj α)} {first : Nat} {xs : List α} (h : (vals m).Seg first xs) : Stage m m first [] 0 xs :=
  ⟨seg_nil _ _, by simpa using h, fun _ => Iff.rfl, fun _ _ => rfl⟩

/-- The next element stays where it is. -/
theorem Stage.stay {m0 m : Mem (Obj α)} {first : Nat} {kept : List α} {x : α} {rest : List α} (h : Stage m0 m first kept 0 (x :: rest)) :
    Stage m0 m first (kept ++ [x]) 0 rest := by
  obtain ⟨h1, h2⟩ := seg_cons.1 h.back
  refine ⟨seg_append.2 ⟨h.front, seg_cons.2 ⟨by simpa using h1, seg_nil _ _⟩⟩, by simpa [Nat.add_assoc] using h2, h.live, ?_⟩
  have e : (kept ++ [x]).length + 0 + rest.length = kept.length + 0 + (x :: rest).length := by simp; omega
  rw [e]
  exact h.off

/-- The next element is left out. -/
theorem Stage.skip {m0 m : Mem (Obj α)} {first gap : Nat} {kept : List α} {x : α} {rest : List α} (h : Stage m0 m first kept gap (x :: rest)) :
    Stage m0 m first kept (gap + 1) rest := by
  obtain ⟨h1, h2⟩ := seg_cons.1 h.back
  refine ⟨h.front, by simpa [Nat.add_assoc] using h2, h.live, ?_⟩
  have e : kept.length + (gap + 1) + rest.length = kept.length + gap + (x :: rest).length := by simp; omega
  rw [e]
  exact h.off

theorem Stage.next {m0 m : Mem (Obj α)} {first gap : Nat} {kept : List α} {x : α} {rest : List α} (h : Stage m0 m first kept gap (x :: rest)) :
    vals m (first + kept.length + gap) = some x := (seg_cons.1 h.back).1

/-- The next element is assigned to the first object of the gap. -/
theorem Stage.assign {m0 m : Mem (Obj α)} {first gap : Nat} {kept : List α} {x : α} {rest : List α} (h : Stage m0 m first kept (gap + 1) (x :: rest))
    (hl : ∀ a, InRange first (kept.length + (gap + 1) + (rest.length + 1)) a → m0 a ≠ none) (a : Option (Obj α × Obj α)) (mk : MoveKind) :
    match assignX a mk m (first + kept.length) (first + kept.length + (gap + 1)) with
    | .ok m' => a = none ∧ Stage m0 m' first (kept ++ [x]) (gap + 1) rest
    | .exn m' => ∃ x' y', a = some (x', y') ∧ Torn m0 m' first kept x' gap y' rest
    | .ub => False := by
  obtain ⟨hv, hb⟩ := seg_cons.1 h.back
  have hd : m (first + kept.length) ≠ none := fun e => hl _ (by simp [InRange]; omega) ((h.live _).1 e)
  have hlive := assignX_live (a := a) (mk := mk) (m := m) (dst := first + kept.length) (src := first + kept.length + (gap + 1))
  unfold assignX at hlive ⊢
  cases a with
  | none =>
    obtain ⟨m', e, h1, h2, h3⟩ := assignFrom_spec (mk := mk) (dst := first + kept.length) hv hd (by cases mk <;> simp only [MoveKind.slack] <;> omega)
    simp only [e]
    refine ⟨trivial, ⟨seg_append.2 ⟨h.front.frame (vals_same h2) fun i hi => by omega, seg_cons.2 ⟨h1, seg_nil _ _⟩⟩, ?_, h.live.trans h3, ?_⟩⟩
    · have e : first + (kept ++ [x]).length + (gap + 1) = first + kept.length + (gap + 1) + 1 := by simp; omega
      rw [e]
      exact hb.frame (vals_same h2) fun i hi => by omega
    · intro c hc
      simp only [InRange, List.length_append, List.length_cons, List.length_nil] at hc
      rw [h2 c (by omega)]
      exact h.off c (by simp only [InRange, List.length_cons]; omega)
  | some xy =>
    obtain ⟨x', y'⟩ := xy
    obtain ⟨d, hd'⟩ := Option.ne_none_iff_exists'.1 hd
    simp only [hv, hd'] at hlive ⊢
    have hs : SameOff m (upd (upd m (first + kept.length) (some x')) (first + kept.length + (gap + 1)) (some y'))
        (fun c => c = first + kept.length ∨ c = first + kept.length + (gap + 1)) := by
      intro c hc
      rw [upd_other _ _ (fun e => hc (.inr e)), upd_other _ _ (fun e => hc (.inl e))]
    refine ⟨x', y', rfl, h.front.frame (vals_same hs) fun i hi => by omega, ?_, ?_, ?_, h.live.trans hlive, ?_⟩
    · rw [upd_other _ _ (by omega), upd_same]
    · rw [show first + kept.length + 1 + gap = first + kept.length + (gap + 1) by omega, upd_same]
    · rw [show first + kept.length + 1 + gap + 1 = first + kept.length + (gap + 1) + 1 by omega]
      exact hb.frame (vals_same hs) fun i hi => by omega
    · intro c hc
      simp only [InRange] at hc
      rw [hs c (by omega)]
      exact h.off c (by simp only [InRange, List.length_cons]; omega)

/-! ## erase_if -/

/-- The elements for which the predicate is false, and its state after it was called for all elements, one after the other; `none` if it throws. -/
def keptBy (f : τ → α → Option (Bool × τ)) : τ → List α → Option (List α × τ)
  | t, [] => some ([], t)
  | t, x :: xs =>
    match f t x with
    | none => none
    | some (b, t') => (keptBy f t' xs).map fun r => (if b then r.1 else x :: r.1, r.2)

/-- What is to be shown of `erase_if`, with `kept` in front, `rest` to go. -/
def EraseEnds (f : τ → α → Option (Bool × τ)) (as : Assigns α) (m0 : Mem (Obj α)) (first : Nat) (kept : List α) (t : τ) (rest : List α) : MProg.Ended α Nat → Prop
  | .returned r m' => ∃ k t' gap, keptBy f t rest = some (k, t') ∧ r = first + (kept ++ k).length ∧ Stage m0 m' first (kept ++ k) gap []
  | .asked m' => ∃ pre x post k t' gap, rest = pre ++ x :: post ∧ keptBy f t pre = some (k, t') ∧ f t' x = none ∧ Stage m0 m' first (kept ++ k) gap (x :: post)
  | .assigned m' => ∃ pre x post k t' t'' j x' y' gap, rest = pre ++ x :: post ∧ keptBy f t pre = some (k, t') ∧ f t' x = some (false, t'') ∧
      as j = some (x', y') ∧ Torn m0 m' first (kept ++ k) x' gap y' post
  | .ub => False

theorem EraseEnds.skip {f : τ → α → Option (Bool × τ)} {as : Assigns α} {m0 : Mem (Obj α)} {first : Nat} {kept : List α} {t t' : τ} {x : α} {rest : List α}
    (hf : f t x = some (true, t')) {e : MProg.Ended α Nat} (h : EraseEnds f as m0 first kept t' rest e) : EraseEnds f as m0 first kept t (x :: rest) e := by
  cases e with
  | ub => exact h
  | returned r m' =>
    obtain ⟨k, t1, gap, h1, h2, h3⟩ := h
    exact ⟨k, t1, gap, by simp [keptBy, hf, h1], h2, h3⟩
  | asked m' =>
    obtain ⟨pre, y, post, k, t1, gap, rfl, h1, h2, h3⟩ := h
    exact ⟨x :: pre, y, post, k, t1, gap, rfl, by simp [keptBy, hf, h1], h2, h3⟩
  | assigned m' =>
    obtain ⟨pre, y, post, k, t1, t2, j, x', y', gap, rfl, h1, h2, h3, h4⟩ := h
    exact ⟨x :: pre, y, post, k, t1, t2, j, x', y', gap, rfl, by simp [keptBy, hf, h1], h2, h3, h4⟩

theorem EraseEnds.keep {f : τ → α → Option (Bool × τ)} {as : Assigns α} {m0 : Mem (Obj α)} {first : Nat} {kept : List α} {t t' : τ} {x : α} {rest : List α}
    (hf : f t x = some (false, t')) {e : MProg.Ended α Nat} (h : EraseEnds f as m0 first (kept ++ [x]) t' rest e) : EraseEnds f as m0 first kept t (x :: rest) e := by
  cases e with
  | ub => exact h
  | returned r m' =>
    obtain ⟨k, t1, gap, h1, h2, h3⟩ := h
    rw [List.append_assoc, List.singleton_append] at h2 h3
    exact ⟨x :: k, t1, gap, by simp [keptBy, hf, h1], h2, h3⟩
  | asked m' =>
    obtain ⟨pre, y, post, k, t1, gap, rfl, h1, h2, h3⟩ := h
    rw [List.append_assoc, List.singleton_append] at h3
    exact ⟨x :: pre, y, post, x :: k, t1, gap, rfl, by simp [keptBy, hf, h1], h2, h3⟩
  | assigned m' =>
    obtain ⟨pre, y, post, k, t1, t2, j, x', y', gap, rfl, h1, h2, h3, h4⟩ := h
    rw [List.append_assoc, List.singleton_append] at h4
    exact ⟨x :: pre, y, post, x :: k, t1, t2, j, x', y', gap, rfl, by simp [keptBy, hf, h1], h2, h3, h4⟩

theorem eraseIfLoopM_ends (f : τ → α → Option (Bool × τ)) (mk : MoveKind) (as : Assigns α) {m0 : Mem (Obj α)} {first : Nat} :
    ∀ (rest : List α) {m : Mem (Obj α)} {kept : List α} {gap : Nat} {t : τ} {j : Nat}, Stage m0 m first kept (gap + 1) rest →
      (∀ a, InRange first (kept.length + (gap + 1) + rest.length) a → m0 a ≠ none) →
      EraseEnds f as m0 first kept t rest ((eraseIfLoopM rest.length (first + kept.length) (first + kept.length + (gap + 1))).exec f mk as t j m)
  | [], m, kept, gap, t, j, h, _ => ⟨[], t, gap + 1, rfl, by simp, by simpa using h⟩
  | x :: rest, m, kept, gap, t, j, h, hl => by
    simp only [List.length_cons] at hl
    simp only [List.length_cons, eraseIfLoopM, MProg.exec, h.next]
    cases hf : f t x with
    | none => exact ⟨[], x, rest, [], t, gap + 1, rfl, rfl, hf, by simpa using h⟩
    | some bt =>
      obtain ⟨b, t'⟩ := bt
      cases b with
      | true =>
        refine EraseEnds.skip hf ?_
        have := eraseIfLoopM_ends f mk as rest (t := t') (j := j) h.skip (fun a ha => hl a (by simp only [InRange] at ha ⊢; omega))
        simpa [Nat.add_assoc] using this
      | false =>
        have ha := h.assign hl (as j) mk
        simp only [Bool.false_eq_true, if_false, MProg.exec]
        cases e : assignX (as j) mk m (first + kept.length) (first + kept.length + (gap + 1)) with
        | ub => rw [e] at ha; exact ha.elim
        | exn m' =>
          rw [e] at ha
          obtain ⟨x', y', h1, h2⟩ := ha
          exact ⟨[], x, rest, [], t, t', j, x', y', gap, rfl, rfl, hf, h1, by simpa using h2⟩
        | ok m' =>
          rw [e] at ha
          refine EraseEnds.keep hf ?_
          have := eraseIfLoopM_ends f mk as rest (t := t') (j := j + 1) ha.2 (fun a h' => hl a (by
            simp only [InRange, List.length_append, List.length_cons, List.length_nil] at h' ⊢; omega))
          dsimp only
          have e1 : first + (kept ++ [x]).length = first + kept.length + 1 := by simp; omega
          have e2 : first + (kept ++ [x]).length + (gap + 1) = first + kept.length + (gap + 1) + 1 := by simp; omega
          rw [e2, e1] at this
          exact this

theorem eraseIfM_ends (f : τ → α → Option (Bool × τ)) (mk : MoveKind) (as : Assigns α) {m0 : Mem (Obj α)} {first last : Nat} :
    ∀ (rest : List α) {m : Mem (Obj α)} {kept : List α} {t : τ} {j : Nat}, Stage m0 m first kept 0 rest → last = first + kept.length + rest.length →
      (∀ a, InRange first (kept.length + rest.length) a → m0 a ≠ none) →
      EraseEnds f as m0 first kept t rest (((findIfLoopM id true rest.length (first + kept.length)).bind fun newLast =>
        if newLast = last then .ret newLast else eraseIfLoopM (last - (newLast + 1)) newLast (newLast + 1)).exec f mk as t j m)
  | [], m, kept, t, j, h, hlast, _ => by
    simp only [List.length_nil, findIfLoopM, MProg.bind]
    rw [if_pos (by simpa using hlast.symm)]
    exact ⟨[], t, 0, rfl, by simp, by simpa using h⟩
  | x :: rest, m, kept, t, j, h, hlast, hl => by
    simp only [List.length_cons] at hlast hl
    have hx := h.next
    rw [Nat.add_zero] at hx
    simp only [List.length_cons, findIfLoopM, MProg.bind, MProg.exec, hx, id]
    cases hf : f t x with
    | none => exact ⟨[], x, rest, [], t, 0, rfl, rfl, hf, by simpa using h⟩
    | some bt =>
      obtain ⟨b, t'⟩ := bt
      cases b with
      | true =>
        simp only [if_true, MProg.bind]
        rw [if_neg (by omega)]
        refine EraseEnds.skip hf ?_
        rw [show last - (first + kept.length + 1) = rest.length by omega]
        exact eraseIfLoopM_ends f mk as rest (gap := 0) h.skip (fun a ha => hl a (by simp only [InRange] at ha ⊢; omega))
      | false =>
        simp only [Bool.false_eq_true, if_false]
        refine EraseEnds.keep hf ?_
        have := eraseIfM_ends f mk as rest (t := t') (j := j) (last := last) h.stay (by simp; omega) (fun a h' => hl a (by
            simp only [InRange, List.length_append, List.length_cons, List.length_nil] at h' ⊢; omega))
        rw [show first + (kept ++ [x]).length = first + kept.length + 1 by simp; omega] at this
        exact this

/-- **C114**, `erase_if`: whatever the predicate answers and wherever a call of it or an assignment throws, nothing undefined happens, no object ends and
nothing outside of the container changes. The elements before the failure that are to be kept are in front, those behind it are where they
were. Only the two objects of the failed assignment hold what it has left. -/
theorem C114_erase_if (f : τ → α → Option (Bool × τ)) (mk : MoveKind) (as : Assigns α) (t : τ) {m : Mem (Obj α)} {first : Nat} {xs : List α}
    (hx : (vals m).Seg first xs) :
    match (eraseIfM first (first + xs.length)).exec f mk as t 0 m with
    | .returned r m' => ∃ kept t' gap, keptBy f t xs = some (kept, t') ∧ r = first + kept.length ∧ Stage m m' first kept gap []
    | .asked m' => ∃ pre x post kept t' gap, xs = pre ++ x :: post ∧ keptBy f t pre = some (kept, t') ∧ f t' x = none ∧ Stage m m' first kept gap (x :: post)
    | .assigned m' => ∃ pre x post kept t' t'' j x' y' gap, xs = pre ++ x :: post ∧ keptBy f t pre = some (kept, t') ∧ f t' x = some (false, t'') ∧
        as j = some (x', y') ∧ Torn m m' first kept x' gap y' post
    | .ub => False := by
  have h := eraseIfM_ends f mk as (last := first + xs.length) xs (t := t) (j := 0) (Stage.start hx) (by simp) (fun a ha => by
    simp only [InRange, List.length_nil] at ha
    have := hx (a - first) (by omega)
    rw [show first + (a - first) = a by omega] at this
    exact vals_live this)
  unfold eraseIfM findIfM
  rw [if_pos (by omega), show first + xs.length - first = xs.length by omega]
  simp only [List.length_nil, Nat.add_zero] at h
  revert h
  cases MProg.exec f mk as ((findIfLoopM id true xs.length first).bind fun newLast =>
    if newLast = first + xs.length then MProg.ret newLast else eraseIfLoopM (first + xs.length - (newLast + 1)) newLast (newLast + 1)) t 0 m with
  | ub => exact id
  | returned r m' => intro h; simpa [EraseEnds] using h
  | asked m' => intro h; simpa [EraseEnds] using h
  | assigned m' => intro h; simpa [EraseEnds] using h

/-! ## unique -/

/-- What is to be shown of `unique`, with `kept` in front, `o` the last of it, and `rest` to go. -/
def UniqueEnds (eq : α → α → Bool) (as : Assigns α) (m0 : Mem (Obj α)) (first : Nat) (kept : List α) (o : α) (rest : List α) : MProg.Ended α Nat → Prop
  | .returned r m' => ∃ gap, r = first + (kept ++ [o] ++ dedupFrom eq o rest).length ∧ Stage m0 m' first (kept ++ [o] ++ dedupFrom eq o rest) gap []
  | .asked m' => ∃ pre x post gap, rest = pre ++ x :: post ∧ Stage m0 m' first (kept ++ [o] ++ dedupFrom eq o pre) gap (x :: post)
  | .assigned m' => ∃ pre x post j x' y' gap, rest = pre ++ x :: post ∧ dedupFrom eq o (pre ++ [x]) = dedupFrom eq o pre ++ [x] ∧ as j = some (x', y') ∧
      Torn m0 m' first (kept ++ [o] ++ dedupFrom eq o pre) x' gap y' post
  | .ub => False

theorem UniqueEnds.skip {eq : α → α → Bool} {as : Assigns α} {m0 : Mem (Obj α)} {first : Nat} {kept : List α} {o x : α} {rest : List α} (hf : eq o x = true)
    {e : MProg.Ended α Nat} (h : UniqueEnds eq as m0 first kept o rest e) : UniqueEnds eq as m0 first kept o (x :: rest) e := by
  cases e with
  | ub => exact h
  | returned r m' => simpa [UniqueEnds, dedupFrom, hf] using h
  | asked m' =>
    obtain ⟨pre, y, post, gap, rfl, h3⟩ := h
    exact ⟨x :: pre, y, post, gap, rfl, by simpa [dedupFrom, hf] using h3⟩
  | assigned m' =>
    obtain ⟨pre, y, post, j, x', y', gap, rfl, h1, h3, h4⟩ := h
    exact ⟨x :: pre, y, post, j, x', y', gap, rfl, by simpa [dedupFrom, hf] using h1, h3, by simpa [dedupFrom, hf] using h4⟩

theorem UniqueEnds.keep {eq : α → α → Bool} {as : Assigns α} {m0 : Mem (Obj α)} {first : Nat} {kept : List α} {o x : α} {rest : List α} (hf : eq o x = false)
    {e : MProg.Ended α Nat} (h : UniqueEnds eq as m0 first (kept ++ [o]) x rest e) : UniqueEnds eq as m0 first kept o (x :: rest) e := by
  cases e with
  | ub => exact h
  | returned r m' => simpa [UniqueEnds, dedupFrom, hf] using h
  | asked m' =>
    obtain ⟨pre, y, post, gap, rfl, h3⟩ := h
    exact ⟨x :: pre, y, post, gap, rfl, by simpa [dedupFrom, hf] using h3⟩
  | assigned m' =>
    obtain ⟨pre, y, post, j, x', y', gap, rfl, h1, h3, h4⟩ := h
    exact ⟨x :: pre, y, post, j, x', y', gap, rfl, by simpa [dedupFrom, hf] using h1, h3, by simpa [dedupFrom, hf] using h4⟩

theorem Stage.last {m0 m : Mem (Obj α)} {first gap : Nat} {kept : List α} {o : α} {rest : List α} (h : Stage m0 m first (kept ++ [o]) gap rest) :
    vals m (first + kept.length) = some o := (seg_cons.1 (seg_append.1 h.front).2).1

theorem uniqueCommonM_ends {eq : α → α → Bool} {f : τ → α × α → Option (Bool × τ)} (hf : Honest (uncurry2 eq) f) (mk : MoveKind) (as : Assigns α)
    {m0 : Mem (Obj α)} {first : Nat} : ∀ (rest : List α) {m : Mem (Obj α)} {kept : List α} {o : α} {gap : Nat} {t : τ} {j it : Nat},
      Stage m0 m first (kept ++ [o]) (gap + 1) rest → (∀ a, InRange first (kept.length + 1 + (gap + 1) + rest.length) a → m0 a ≠ none) →
      it = first + kept.length + 1 + (gap + 1) →
      UniqueEnds eq as m0 first kept o rest ((uniqueCommonM rest.length it (first + kept.length)).exec f mk as t j m)
  | [], m, kept, o, gap, t, j, it, h, _, _ => ⟨gap + 1, by simp [dedupFrom]; omega, by simpa [dedupFrom] using h⟩
  | x :: rest, m, kept, o, gap, t, j, it, h, hl, hit => by
    simp only [List.length_cons] at hl
    have e1 : first + (kept ++ [o]).length = first + kept.length + 1 := by simp; omega
    have hx := h.next
    rw [e1, ← hit] at hx
    simp only [List.length_cons, uniqueCommonM, MProg.exec, h.last, hx]
    cases hq : f t (o, x) with
    | none => exact ⟨[], x, rest, gap + 1, rfl, by simpa [dedupFrom] using h⟩
    | some bt =>
      obtain ⟨b, t'⟩ := bt
      have hb : b = eq o x := hf _ _ _ _ hq
      cases b with
      | true =>
        refine UniqueEnds.skip hb.symm ?_
        exact uniqueCommonM_ends hf mk as rest h.skip (fun a ha => hl a (by simp only [InRange] at ha ⊢; omega)) (by omega)
      | false =>
        have ha := h.assign (fun a ha => hl a (by simp only [InRange, List.length_append, List.length_cons, List.length_nil] at ha ⊢; omega)) (as j) mk
        rw [e1, ← hit] at ha
        simp only [Bool.false_eq_true, if_false, MProg.exec]
        cases e : assignX (as j) mk m (first + kept.length + 1) it with
        | ub => rw [e] at ha; exact ha.elim
        | exn m' =>
          rw [e] at ha
          obtain ⟨x', y', h1, h2⟩ := ha
          exact ⟨[], x, rest, j, x', y', gap, rfl, by simp [dedupFrom, ← hb], h1, by simpa [dedupFrom] using h2⟩
        | ok m' =>
          rw [e] at ha
          refine UniqueEnds.keep hb.symm ?_
          have := uniqueCommonM_ends hf mk as rest (t := t') (j := j + 1) (it := it + 1) ha.2 (fun a h' => hl a (by
            simp only [InRange, List.length_append, List.length_cons, List.length_nil] at h' ⊢; omega)) (by simp; omega)
          rw [e1] at this
          exact this

theorem uniqueSecondM_ends {eq : α → α → Bool} {f : τ → α × α → Option (Bool × τ)} (hf : Honest (uncurry2 eq) f) (mk : MoveKind) (as : Assigns α)
    {m0 : Mem (Obj α)} {first last : Nat} {kept : List α} {o v : α} (hv : ∀ x, eq v x = eq o x) :
    ∀ (rest : List α) {m : Mem (Obj α)} {gap : Nat} {t : τ} {j it : Nat},
      Stage m0 m first (kept ++ [o]) (gap + 1) rest → (∀ a, InRange first (kept.length + 1 + (gap + 1) + rest.length) a → m0 a ≠ none) →
      it = first + kept.length + 1 + (gap + 1) → last = it + rest.length →
      UniqueEnds eq as m0 first kept o rest (((findIfLoopM (fun x => (v, x)) false rest.length it).bind fun other =>
        if other = last then .ret (first + kept.length + 1) else .assign (first + kept.length + 1) other
          (uniqueCommonM (last - (other + 1)) (other + 1) (first + kept.length + 1))).exec f mk as t j m)
  | [], m, gap, t, j, it, h, _, hit, hlast => by
    simp only [List.length_nil, findIfLoopM, MProg.bind]
    rw [if_pos (by simpa using hlast.symm)]
    exact ⟨gap + 1, by simp [dedupFrom]; omega, by simpa [dedupFrom] using h⟩
  | x :: rest, m, gap, t, j, it, h, hl, hit, hlast => by
    simp only [List.length_cons] at hl hlast
    have e1 : first + (kept ++ [o]).length = first + kept.length + 1 := by simp; omega
    have hx := h.next
    rw [e1, ← hit] at hx
    simp only [List.length_cons, findIfLoopM, MProg.bind, MProg.exec, hx]
    cases hq : f t (v, x) with
    | none => exact ⟨[], x, rest, gap + 1, rfl, by simpa [dedupFrom] using h⟩
    | some bt =>
      obtain ⟨b, t'⟩ := bt
      have hb : b = eq o x := (hf _ _ _ _ hq).trans (hv x)
      cases b with
      | true =>
        simp only [Bool.true_eq_false, if_false]
        refine UniqueEnds.skip hb.symm ?_
        exact uniqueSecondM_ends hf mk as hv rest h.skip (fun a ha => hl a (by simp only [InRange] at ha ⊢; omega)) (by omega) (by omega)
      | false =>
        have ha := h.assign (fun a ha => hl a (by simp only [InRange, List.length_append, List.length_cons, List.length_nil] at ha ⊢; omega)) (as j) mk
        rw [e1, ← hit] at ha
        simp only [if_true, MProg.bind]
        rw [if_neg (by omega)]
        simp only [MProg.exec]
        cases e : assignX (as j) mk m (first + kept.length + 1) it with
        | ub => rw [e] at ha; exact ha.elim
        | exn m' =>
          rw [e] at ha
          obtain ⟨x', y', h1, h2⟩ := ha
          exact ⟨[], x, rest, j, x', y', gap, rfl, by simp [dedupFrom, ← hb], h1, by simpa [dedupFrom] using h2⟩
        | ok m' =>
          rw [e] at ha
          refine UniqueEnds.keep hb.symm ?_
          rw [show last - (it + 1) = rest.length by omega]
          have := uniqueCommonM_ends hf mk as rest (t := t') (j := j + 1) (it := it + 1) ha.2 (fun a h' => hl a (by
            simp only [InRange, List.length_append, List.length_cons, List.length_nil] at h' ⊢; omega)) (by simp; omega)
          rw [e1] at this
          exact this

theorem uniqueM_ends {eq : α → α → Bool} (heq : ∀ a b c, eq a b = true → eq a c = eq b c) {f : τ → α × α → Option (Bool × τ)} (hf : Honest (uncurry2 eq) f)
    (mk : MoveKind) (as : Assigns α) {m0 : Mem (Obj α)} {first last : Nat} :
    ∀ (rest : List α) {m : Mem (Obj α)} {kept : List α} {o : α} {t : τ} {j : Nat},
      Stage m0 m first (kept ++ [o]) 0 rest → (∀ a, InRange first (kept.length + 1 + rest.length) a → m0 a ≠ none) → last = first + kept.length + 1 + rest.length →
      UniqueEnds eq as m0 first kept o rest (((findFirstEqualLoopM rest.length (first + kept.length) (first + kept.length + 1)).bind fun e =>
        if e = last then .ret e
        else .get e fun v => (findIfM (fun x => (v, x)) false (e + 1) last).bind fun other =>
          if other = last then .ret e else .assign e other (uniqueCommonM (last - (other + 1)) (other + 1) e)).exec f mk as t j m)
  | [], m, kept, o, t, j, h, _, hlast => by
    simp only [List.length_nil, findFirstEqualLoopM, MProg.bind]
    rw [if_pos (by simpa using hlast.symm)]
    exact ⟨0, by simp [dedupFrom]; omega, by simpa [dedupFrom] using h⟩
  | x :: rest, m, kept, o, t, j, h, hl, hlast => by
    simp only [List.length_cons] at hl hlast
    have e1 : first + (kept ++ [o]).length = first + kept.length + 1 := by simp; omega
    have hx := h.next
    rw [e1, Nat.add_zero] at hx
    simp only [List.length_cons, findFirstEqualLoopM, MProg.bind, MProg.exec, h.last, hx]
    cases hq : f t (o, x) with
    | none => exact ⟨[], x, rest, 0, rfl, by simpa [dedupFrom] using h⟩
    | some bt =>
      obtain ⟨b, t'⟩ := bt
      have hb : b = eq o x := hf _ _ _ _ hq
      cases b with
      | true =>
        simp only [if_true, MProg.bind]
        rw [if_neg (by omega)]
        simp only [MProg.exec, hx]
        unfold findIfM
        rw [if_pos (by omega), show last - (first + kept.length + 1 + 1) = rest.length by omega]
        refine UniqueEnds.skip hb.symm ?_
        exact uniqueSecondM_ends hf mk as (fun c => (heq o x c hb.symm).symm) rest (gap := 0) h.skip (fun a ha => hl a (by simp only [InRange] at ha ⊢; omega))
          (by omega) (by omega)
      | false =>
        simp only [Bool.false_eq_true, if_false]
        refine UniqueEnds.keep hb.symm ?_
        have := uniqueM_ends heq hf mk as rest (t := t') (j := j) (last := last) h.stay (fun a h' => hl a (by
            simp only [InRange, List.length_append, List.length_cons, List.length_nil] at h' ⊢; omega)) (by simp; omega)
        rw [e1] at this
        exact this

/-- **C114**, `unique`: wherever a comparison or an assignment throws, nothing undefined happens, no object ends and nothing outside of the range changes.
The elements before the failure that are to be kept are in front, those behind it are where they were. Only the two objects of the failed
assignment hold what it has left. The hypothesis on `eq` holds for every equivalence relation. -/
theorem C114_unique {eq : α → α → Bool} (heq : ∀ a b c, eq a b = true → eq a c = eq b c) {f : τ → α × α → Option (Bool × τ)} (hf : Honest (uncurry2 eq) f)
    (mk : MoveKind) (as : Assigns α) (t : τ) {m : Mem (Obj α)} {first : Nat} {xs : List α} (hx : (vals m).Seg first xs) :
    match (uniqueM first (first + xs.length)).exec f mk as t 0 m with
    | .returned r m' => ∃ gap, r = first + (firstOfRuns eq xs).length ∧ Stage m m' first (firstOfRuns eq xs) gap []
    | .asked m' => ∃ pre x post gap, xs = pre ++ x :: post ∧ Stage m m' first (firstOfRuns eq pre) gap (x :: post)
    | .assigned m' => ∃ pre x post j x' y' gap, xs = pre ++ x :: post ∧ firstOfRuns eq (pre ++ [x]) = firstOfRuns eq pre ++ [x] ∧ as j = some (x', y') ∧
        Torn m m' first (firstOfRuns eq pre) x' gap y' post
    | .ub => False := by
  have hd : ∀ ys, firstOfRuns eq ys = dedup eq ys := fun ys => (dedup_runs fun a b c _ h => heq a b c h).symm
  cases xs with
  | nil =>
    simp only [uniqueM, findFirstEqualM, List.length_nil, Nat.add_zero, if_true, MProg.bind, MProg.exec]
    exact ⟨0, rfl, Stage.start hx⟩
  | cons o rest =>
    have h := uniqueM_ends heq hf mk as (last := first + (rest.length + 1)) rest (t := t) (j := 0) (kept := []) (Stage.start hx).stay (fun a ha => by
      simp only [InRange, List.length_nil] at ha
      have := hx (a - first) (by simp; omega)
      rw [show first + (a - first) = a by omega] at this
      exact vals_live this) (by simp; omega)
    unfold uniqueM findFirstEqualM
    simp only [List.length_cons]
    rw [if_neg (by omega), show first + (rest.length + 1) - first - 1 = rest.length by omega]
    simp only [List.length_nil, Nat.add_zero] at h
    revert h
    generalize MProg.exec f mk as _ t 0 m = e
    intro h
    cases e with
    | ub => exact h
    | returned r m' =>
      obtain ⟨gap, h1, h2⟩ := h
      refine ⟨gap, ?_, ?_⟩
      · rw [hd, h1]; rfl
      · rw [hd]; exact h2
    | asked m' =>
      obtain ⟨pre, x, post, gap, rfl, h2⟩ := h
      refine ⟨o :: pre, x, post, gap, rfl, ?_⟩
      rw [hd]; exact h2
    | assigned m' =>
      obtain ⟨pre, x, post, j, x', y', gap, rfl, h1, h2, h3⟩ := h
      refine ⟨o :: pre, x, post, j, x', y', gap, rfl, ?_, h2, ?_⟩
      · rw [hd, hd]; simp only [List.cons_append, dedup, h1]
      · rw [hd]; exact h3

/-! ## Examples -/

/-- Six numbers; the second assignment of `erase_if` of the even ones throws after it has taken the value away from its source. -/
example : ∃ m, (eraseIfM 0 6).exec (fun (t : Unit) (x : Nat) => some (x % 2 == 0, t)) .clear (fun j => if j = 1 then some (.val 4, .moved) else none) () 0
    (objs [1, 2, 3, 4, 5, 7]) = .assigned m ∧
    (List.range 6).map m = [some (.val 1), some (.val 3), some (.val 4), some (.val 4), some .moved, some (.val 7)] := ⟨_, rfl, rfl⟩

example := C114_erase_if (fun (t : Unit) (x : Nat) => some (x % 2 == 0, t)) .clear (fun j => if j = 1 then some (.val 4, .moved) else none) ()
  (m := objs [1, 2, 3, 4, 5, 7]) (first := 0) (xs := [1, 2, 3, 4, 5, 7])
  (by intro i hi; simp only [List.length_cons, List.length_nil] at hi; interval_cases i <;> rfl)

/-- `unique` whose first assignment throws. -/
example : ∃ m, (uniqueM 0 5).exec (fun (t : Unit) (x : Nat × Nat) => some (x.1 == x.2, t)) .clear (fun _ => some (.moved, .val 2)) () 0
    (objs [1, 1, 1, 2, 3]) = .assigned m ∧ (List.range 5).map m = [some (.val 1), some .moved, some (.val 1), some (.val 2), some (.val 3)] := ⟨_, rfl, rfl⟩

example := C114_unique (eq := fun a b : Nat => a == b) (fun a b c h => by simp at h; subst h; rfl) (f := fun (t : Unit) x => some (x.1 == x.2, t))
  (fun t q b t' h => by simp only [Option.some.injEq, Prod.mk.injEq] at h; exact h.1.symm) .clear (fun _ => some (.moved, .val 2)) ()
  (m := objs [1, 1, 1, 2, 3]) (first := 0) (xs := [1, 1, 1, 2, 3])
  (by intro i hi; simp only [List.length_cons, List.length_nil] at hi; interval_cases i <;> rfl)

end Verif.Algo.Assigning
