import Mathlib.Data.List.Basic
import Verif.Base.Hist

/-!
# `remove_none` of ranges that can be iterated many times (property C113)

`algorithms/remove_none.cpp` for ranges whose cached elements are kept in the iterator (`iterator_inplace_data`): ranges of references to
optional objects, ranges of pointers, and ranges that return trivially destructible optional values. Programs have any number of iterators
and references, and change the elements while they use them.
-/

namespace Verif.Views.Nones

variable {V : Type}

/-- The range below. `refs n`: `n` optional objects, of which an iterator shows references (`*it` is `optional<T> &`), for example an `array`
or a `vector` of `optional`. `ptrs`: an iterator shows pointers, as references to stored pointers or (`byValue`) as values that a function
returns. `vals`: an iterator shows optional values that are computed anew each time, always the same ones. -/
inductive Src (V : Type) where
  | refs (n : Nat)
  | ptrs (ps : List (Option Nat)) (byValue : Bool)
  | vals (xs : List (Option V))

/-- The optional objects of the range, and the objects that pointers point to. -/
structure Mem (V : Type) where
  opt : Nat → Option V
  obj : Nat → V

/-- What `dereference<Range>(it)` is (`dereference.cpp` 17-25), and what `wrapper::replace` keeps of it (`algorithms/remove_none.cpp` 30-84): the address of an
optional object, a pointer, or an optional value. -/
inductive Elem (V : Type) where
  | ref (k : Nat)
  | ptr (p : Option Nat)
  | val (x : Option V)

namespace Src

/-- The distance from `begin` to `end` of the range below. -/
def len : Src V → Nat
  | refs n => n
  | ptrs ps _ => ps.length
  | vals xs => xs.length

/-- `*it` of the range below; nothing at its end. -/
def elem : Src V → Nat → Option (Elem V)
  | refs n, k => if k < n then some (.ref k) else none
  | ptrs ps _, k => ps[k]?.map .ptr
  | vals xs, k => xs[k]?.map .val

end Src

/-- `if (storage.get())` (`algorithms/remove_none.cpp` 195). -/
def Elem.truth (m : Mem V) : Elem V → Bool
  | .ref k => (m.opt k).isSome
  | .ptr p => p.isSome
  | .val x => x.isSome

/-- `remove_none_iterator` with `iterator_inplace_data` (`algorithms/remove_none.cpp` 123-149, 155-208): the iterator of the range below and the cached element.
`m_last` is the length of the range. -/
structure It (V : Type) where
  pos : Nat
  cache : Option (Elem V)

/-- `advance_to_first_value` (`algorithms/remove_none.cpp` 188-200). The first argument is the distance from `it` to `last`. -/
def advance (s : Src V) (m : Mem V) : Nat → Nat → Option (Elem V) → Option (It V)
  | 0, pos, c => some ⟨pos, c⟩
  | d + 1, pos, _ =>
    match s.elem pos with
    | none => none
    | some e => if e.truth m then some ⟨pos, some e⟩ else advance s m d (pos + 1) (some e)

/-- `remove_none::begin()` (`algorithms/remove_none.cpp` 226-251) and the constructor of the iterator (158-162). -/
def first (s : Src V) (m : Mem V) : Option (It V) := advance s m s.len 0 none

/-- `operator+(it, 1)` (`algorithms/remove_none.cpp` 172-176). The `operators` library makes `++it` of it, as `it = std::move(it) + 1`. -/
def succ (s : Src V) (m : Mem V) (it : It V) : Option (It V) :=
  if it.pos < s.len then advance s m (s.len - (it.pos + 1)) (it.pos + 1) it.cache else none

/-- What a reference refers to: the value in an optional object, an object, or the value in the cache of the iterator in a variable. -/
inductive Loc where
  | opt (k : Nat)
  | obj (p : Nat)
  | cached (x : Nat)
deriving DecidableEq

/-- `operator*` of the iterator in variable `x` (`algorithms/remove_none.cpp` 164-170). `*` of an optional without value fails an assertion. -/
def It.deref (m : Mem V) (x : Nat) (it : It V) : Option Loc :=
  match it.cache with
  | some (.ref k) => if (m.opt k).isSome then some (.opt k) else none
  | some (.ptr (some p)) => some (.obj p)
  | some (.val (some _)) => some (.cached x)
  | _ => none

/-- `operator==` of two iterators (`algorithms/remove_none.cpp` 178-180). -/
def It.same (a b : It V) : Bool := a.pos == b.pos

/-- `operator==` with `std::default_sentinel` (`algorithms/remove_none.cpp` 181-183). -/
def It.atEnd (s : Src V) (a : It V) : Bool := a.pos == s.len

/-- The program: memory, iterators in variables, references in variables. -/
structure State (V : Type) where
  m : Mem V
  its : Nat → Option (It V)
  refs : Nat → Option Loc

/-- What a reference shows. -/
def State.load (c : State V) : Loc → Option V
  | .opt k => c.m.opt k
  | .obj p => some (c.m.obj p)
  | .cached x =>
    match c.its x with
    | some ⟨_, some (.val v)⟩ => v
    | _ => none

/-- Assigning to what a reference refers to. A cache is reached as `const` only. -/
def Mem.put (m : Mem V) (v : V) : Loc → Option (Mem V)
  | .opt k => (m.opt k).map fun _ => { m with opt := upd m.opt k (some v) }
  | .obj p => some { m with obj := upd m.obj p v }
  | .cached _ => none

/-- What the steps of a program return. -/
inductive Ans (V : Type) where
  | unit
  | val (v : V)
  | flag (b : Bool)
deriving DecidableEq

/-- Steps: `x = view.begin()`, `y = x`, `++x`, the end of the lifetime of `x`, `T v(as_const(*x))`, `T v(*x)`, `*x = v`, `x == y`, `x == end`,
`auto && r = *x`, `T v(as_const(r))`, `r = v`, and changes of an optional object or an object that do not go through the view. -/
inductive Step (V : Type) where
  | start (x : Nat)
  | copy (x y : Nat)
  | next (x : Nat)
  | drop (x : Nat)
  | read (x : Nat)
  | take (x : Nat)
  | write (x : Nat) (v : V)
  | same (x y : Nat)
  | atEnd (x : Nat)
  | bind (r x : Nat)
  | load (r : Nat)
  | store (r : Nat) (v : V)
  | setOpt (k : Nat) (v : Option V)
  | setObj (p : Nat) (v : V)

/-- `T v(*x)` (`algorithms/remove_none.cpp` 164-170 and `is_rvalue` 151-152): moves from what it refers to if the elements of the range below are values and the value is not
in the cache of the iterator, which is `const` there. -/
def moves (s : Src V) : Bool :=
  match s with
  | .ptrs _ b => b
  | _ => false

/-- One step, `none` if it is undefined. `mv` is what moving from an object leaves. -/
def Step.run (s : Src V) (mv : V → V) (c : State V) : Step V → Option (Ans V × State V)
  | .start x => (first s c.m).map fun it => (.unit, { c with its := upd c.its x (some it) })
  | .copy x y => (c.its x).map fun it => (.unit, { c with its := upd c.its y (some it) })
  | .next x =>
    match c.its x with
    | none => none
    | some it => (succ s c.m it).map fun it' => (.unit, { c with its := upd c.its x (some it') })
  | .drop x => (c.its x).map fun _ => (.unit, { c with its := upd c.its x none })
  | .read x =>
    match c.its x with
    | none => none
    | some it =>
      match it.deref c.m x with
      | none => none
      | some l => (c.load l).map fun v => (.val v, c)
  | .take x =>
    match c.its x with
    | none => none
    | some it =>
      match it.deref c.m x with
      | none => none
      | some l =>
        match c.load l with
        | none => none
        | some v => if moves s then (c.m.put (mv v) l).map fun m => (.val v, { c with m := m }) else some (.val v, c)
  | .write x v =>
    match c.its x with
    | none => none
    | some it =>
      match it.deref c.m x with
      | none => none
      | some l => (c.m.put v l).map fun m => (.unit, { c with m := m })
  | .same x y =>
    match c.its x, c.its y with
    | some a, some b => some (.flag (a.same b), c)
    | _, _ => none
  | .atEnd x => (c.its x).map fun a => (.flag (a.atEnd s), c)
  | .bind r x =>
    match c.its x with
    | none => none
    | some it => (it.deref c.m x).map fun l => (.unit, { c with refs := upd c.refs r (some l) })
  | .load r =>
    match c.refs r with
    | none => none
    | some l => (c.load l).map fun v => (.val v, c)
  | .store r v =>
    match c.refs r with
    | none => none
    | some l => (c.m.put v l).map fun m => (.unit, { c with m := m })
  | .setOpt k v => some (.unit, { c with m := { c.m with opt := upd c.m.opt k v } })
  | .setObj p v => some (.unit, { c with m := { c.m with obj := upd c.m.obj p v } })

/-- A program goes on with what its steps return. -/
inductive Prog (V A : Type) where
  | ret (a : A)
  | step (o : Step V) (k : Ans V → Prog V A)

/-- A program. -/
def Prog.run {A : Type} (s : Src V) (mv : V → V) : Prog V A → State V → Option (A × State V)
  | .ret a, c => some (a, c)
  | .step o k, c =>
    match o.run s mv c with
    | none => none
    | some (r, c') => (k r).run s mv c'

/-! ## The specification: positions in a list of optional values -/

/-- The list of optional values that the range below is at the moment. -/
def now (m : Mem V) : Src V → List (Option V)
  | .refs n => (List.range n).map m.opt
  | .ptrs ps _ => ps.map (·.map m.obj)
  | .vals xs => xs

/-- The value at a position, if there is one. -/
def look (l : List (Option V)) (k : Nat) : Option V := l[k]?.join

/-- The first position from `k` on that has a value; the length of the list if there is none. -/
def stop (l : List (Option V)) (k : Nat) : Nat := k + ((l.drop k).takeWhile (·.isNone)).length

/-- Iterators are positions. A reference is the position that the iterator had, and which iterator it was. -/
structure Spec (V : Type) where
  m : Mem V
  its : Nat → Option Nat
  refs : Nat → Option (Nat × Nat)

/-- The memory in which the value at position `k` is `v`. -/
def change (m : Mem V) (v : V) : Src V → Nat → Mem V
  | .refs _, k => { m with opt := upd m.opt k (some v) }
  | .ptrs ps _, k =>
    match ps[k]? with
    | some (some p) => { m with obj := upd m.obj p v }
    | _ => m
  | .vals _, _ => m

/-- The ranges whose values are elsewhere than in the range of optionals. -/
def Src.writable : Src V → Prop
  | .refs _ => True
  | .ptrs _ b => b = false
  | .vals _ => False

/-- The values are computed. -/
def Src.computed : Src V → Prop
  | .vals _ => True
  | _ => False

/-- The pointers are computed. -/
def Src.pointsAnew : Src V → Prop
  | .ptrs _ b => b = true
  | _ => False

/-- The step on positions. Taking a value leaves it where it is. -/
def Step.mean (s : Src V) (a : Spec V) : Step V → Ans V × Spec V
  | .start x => (.unit, { a with its := upd a.its x (some (stop (now a.m s) 0)) })
  | .copy x y => (.unit, { a with its := upd a.its y (a.its x) })
  | .next x => (.unit, { a with its := upd a.its x ((a.its x).map fun k => stop (now a.m s) (k + 1)) })
  | .drop x => (.unit, { a with its := upd a.its x none })
  | .read x => (((a.its x).bind (look (now a.m s))).elim .unit .val, a)
  | .take x => (((a.its x).bind (look (now a.m s))).elim .unit .val, a)
  | .write x v => (.unit, { a with m := (a.its x).elim a.m (change a.m v s) })
  | .same x y => (.flag (decide (a.its x = a.its y)), a)
  | .atEnd x => (.flag (decide (a.its x = some (now a.m s).length)), a)
  | .bind r x => (.unit, { a with refs := upd a.refs r ((a.its x).map fun k => (k, x)) })
  | .load r => (((a.refs r).bind fun k => look (now a.m s) k.1).elim .unit .val, a)
  | .store r v => (.unit, { a with m := (a.refs r).elim a.m fun k => change a.m v s k.1 })
  | .setOpt k v => (.unit, { a with m := { a.m with opt := upd a.m.opt k v } })
  | .setObj p v => (.unit, { a with m := { a.m with obj := upd a.m.obj p v } })

/-- What a program may do. Iterators are at a value when they are dereferenced, and before the end when they are incremented. Values are taken
out of ranges of computed pointers only if moving leaves them as they are. A reference that an iterator of computed values has returned is
used only while that iterator is where it was. -/
def Step.Pre (s : Src V) (mv : V → V) (a : Spec V) : Step V → Prop
  | .copy x _ | .drop x | .atEnd x => (a.its x).isSome
  | .next x => ∃ k, a.its x = some k ∧ k < (now a.m s).length
  | .read x | .bind _ x => ∃ k v, a.its x = some k ∧ look (now a.m s) k = some v
  | .take x => ∃ k v, a.its x = some k ∧ look (now a.m s) k = some v ∧ (s.pointsAnew → mv v = v)
  | .write x _ => ∃ k v, a.its x = some k ∧ look (now a.m s) k = some v ∧ s.writable
  | .same x y => (a.its x).isSome ∧ (a.its y).isSome
  | .load r => ∃ k x v, a.refs r = some (k, x) ∧ look (now a.m s) k = some v ∧ (s.computed → a.its x = some k)
  | .store r _ => ∃ k x v, a.refs r = some (k, x) ∧ look (now a.m s) k = some v ∧ s.writable
  | .start _ | .setOpt _ _ | .setObj _ _ => True

/-- A program on positions. -/
def Prog.mean {A : Type} (s : Src V) : Prog V A → Spec V → A × Spec V
  | .ret a, c => (a, c)
  | .step o k, c => (k (o.mean s c).1).mean s (o.mean s c).2

/-- All steps of a program are allowed. -/
def Prog.Pre {A : Type} (s : Src V) (mv : V → V) : Prog V A → Spec V → Prop
  | .ret _, _ => True
  | .step o k, c => o.Pre s mv c ∧ (k (o.mean s c).1).Pre s mv (o.mean s c).2

/-! ## Proofs -/

theorem now_length (m : Mem V) (s : Src V) : (now m s).length = s.len := by
  cases s <;> simp [now, Src.len]

theorem stop_ge (l : List (Option V)) : stop l l.length = l.length := by simp [stop]

theorem stop_some {l : List (Option V)} {k : Nat} {v : V} (h : look l k = some v) : stop l k = k := by
  unfold look at h
  cases hk : l[k]? with
  | none => simp [hk] at h
  | some e =>
    rw [hk] at h
    obtain ⟨hlt, he⟩ := List.getElem?_eq_some_iff.mp hk
    simp only [Option.join_some] at h
    unfold stop
    rw [List.drop_eq_getElem_cons hlt, he, h]
    simp

theorem stop_none {l : List (Option V)} {k : Nat} (hk : k < l.length) (h : look l k = none) : stop l k = stop l (k + 1) := by
  unfold look at h
  rw [List.getElem?_eq_getElem hk] at h
  simp only [Option.join_some] at h
  unfold stop
  rw [List.drop_eq_getElem_cons hk, h]
  simp only [List.takeWhile_cons, Option.isNone_none, if_true, List.length_cons]
  omega

theorem stop_le {l : List (Option V)} {k : Nat} (hk : k ≤ l.length) : stop l k ≤ l.length := by
  have h := (List.takeWhile_sublist (fun o : Option V => o.isNone) (l := l.drop k)).length_le
  rw [List.length_drop] at h
  unfold stop
  omega

theorem le_stop (l : List (Option V)) (k : Nat) : k ≤ stop l k := by simp [stop]

/-- What an element of the range below is in the list. -/
theorem elem_look (m : Mem V) {s : Src V} {k : Nat} (hk : k < s.len) :
    ∃ e, s.elem k = some e ∧ e.truth m = (look (now m s) k).isSome := by
  cases s with
  | refs n =>
    have hk' : k < n := hk
    refine ⟨.ref k, by simp [Src.elem, hk'], ?_⟩
    simp [Elem.truth, look, now, hk']
  | ptrs ps b =>
    have hk' : k < ps.length := hk
    refine ⟨.ptr ps[k], by simp [Src.elem, hk'], ?_⟩
    simp [Elem.truth, look, now, hk']
  | vals xs =>
    have hk' : k < xs.length := hk
    refine ⟨.val xs[k], by simp [Src.elem, hk'], ?_⟩
    simp [Elem.truth, look, now, hk']

/-- An iterator that is in order: at an element it has cached that element. -/
def It.Good (s : Src V) (it : It V) : Prop := it.pos ≤ s.len ∧ (it.pos < s.len → it.cache = s.elem it.pos)

theorem advance_eq (s : Src V) (m : Mem V) : ∀ (d pos : Nat) (c : Option (Elem V)), pos + d = s.len →
    ∃ it, advance s m d pos c = some it ∧ it.pos = stop (now m s) pos ∧ it.Good s := by
  intro d
  induction d with
  | zero =>
    intro pos c h
    refine ⟨⟨pos, c⟩, rfl, ?_, ?_⟩
    · rw [show pos = (now m s).length by rw [now_length]; omega, stop_ge]
    · exact ⟨by show pos ≤ _; omega, fun hlt => absurd hlt (by show ¬ pos < _; omega)⟩
  | succ d ih =>
    intro pos c h
    obtain ⟨e, he, ht⟩ := elem_look m (s := s) (k := pos) (by omega)
    unfold advance
    simp only [he]
    cases hl : look (now m s) pos with
    | none =>
      rw [hl] at ht
      rw [if_neg (by simp [ht])]
      obtain ⟨it, h1, h2, h3⟩ := ih (pos + 1) (some e) (by omega)
      exact ⟨it, h1, by rw [h2, stop_none (by rw [now_length]; omega) hl], h3⟩
    | some v =>
      rw [hl] at ht
      rw [if_pos (by simp [ht])]
      exact ⟨⟨pos, some e⟩, rfl, (stop_some hl).symm, by show pos ≤ _; omega, fun _ => he.symm⟩

theorem first_eq (s : Src V) (m : Mem V) : ∃ it, first s m = some it ∧ it.pos = stop (now m s) 0 ∧ it.Good s :=
  advance_eq s m s.len 0 none (by omega)

theorem succ_eq {s : Src V} (m : Mem V) {it : It V} (h : it.pos < s.len) :
    ∃ it', succ s m it = some it' ∧ it'.pos = stop (now m s) (it.pos + 1) ∧ it'.Good s := by
  unfold succ
  rw [if_pos h]
  exact advance_eq s m _ _ _ (by omega)

/-- The reference that the iterator in `x` returns at position `k`. -/
def at_ (s : Src V) (k x : Nat) : Option Loc :=
  match s with
  | .refs _ => some (.opt k)
  | .ptrs ps _ => ps[k]?.join.map .obj
  | .vals _ => some (.cached x)

theorem look_lt {l : List (Option V)} {k : Nat} {v : V} (h : look l k = some v) : k < l.length := by
  unfold look at h
  by_contra hn
  rw [List.getElem?_eq_none (by omega)] at h
  simp at h

theorem deref_eq {s : Src V} {m : Mem V} {it : It V} (hg : it.Good s) {v : V} (h : look (now m s) it.pos = some v) (x : Nat) :
    it.deref m x = at_ s it.pos x ∧ (at_ s it.pos x).isSome := by
  have hlt : it.pos < s.len := by have := look_lt h; rwa [now_length] at this
  have hc := hg.2 hlt
  cases s with
  | refs n =>
    have hk' : it.pos < n := hlt
    simp only [Src.elem, hk', if_true] at hc
    simp only [look, now, List.getElem?_map, List.getElem?_range hk', Option.map_some, Option.join_some] at h
    simp [It.deref, hc, at_, h]
  | ptrs ps b =>
    have hk' : it.pos < ps.length := hlt
    simp only [Src.elem, List.getElem?_eq_getElem hk', Option.map_some] at hc
    simp only [look, now, List.getElem?_map, List.getElem?_eq_getElem hk', Option.map_some, Option.join_some] at h
    cases hp : ps[it.pos] with
    | none => simp [hp] at h
    | some p => simp [It.deref, hc, at_, hp, List.getElem?_eq_getElem hk']
  | vals xs =>
    have hk' : it.pos < xs.length := hlt
    simp only [Src.elem, List.getElem?_eq_getElem hk', Option.map_some] at hc
    simp only [look, now, List.getElem?_eq_getElem hk', Option.join_some] at h
    simp [It.deref, hc, at_, h]

/-- The state of the program and the positions. -/
structure Rel (s : Src V) (c : State V) (a : Spec V) : Prop where
  mem : c.m = a.m
  its : ∀ x, (c.its x).map It.pos = a.its x
  good : ∀ x it, c.its x = some it → it.Good s
  refs : ∀ r, c.refs r = (a.refs r).bind fun k => at_ s k.1 k.2

theorem Rel.get {s : Src V} {c : State V} {a : Spec V} (h : Rel s c a) {x k : Nat} (hx : a.its x = some k) :
    ∃ it, c.its x = some it ∧ it.pos = k ∧ it.Good s := by
  have := h.its x
  rw [hx] at this
  cases hc : c.its x with
  | none => simp [hc] at this
  | some it =>
    rw [hc] at this
    exact ⟨it, rfl, Option.some.inj this, h.good x it hc⟩

theorem Rel.setIt {s : Src V} {c : State V} {a : Spec V} (h : Rel s c a) (x : Nat) {it : It V} {k : Nat} (hk : it.pos = k) (hg : it.Good s) :
    Rel s { c with its := upd c.its x (some it) } { a with its := upd a.its x (some k) } := by
  refine ⟨h.mem, fun y => ?_, fun y it' => ?_, h.refs⟩
  · by_cases e : y = x
    · subst e; simp [upd_same, hk]
    · simp only [upd_other _ _ e]; exact h.its y
  · by_cases e : y = x
    · subst e
      simp only [upd_same]
      intro e'; cases e'; exact hg
    · simp only [upd_other _ _ e]; exact h.good y it'

/-- What a reference to position `k` shows. -/
theorem Rel.load {s : Src V} {c : State V} {a : Spec V} (h : Rel s c a) {k x : Nat} {v : V} (hl : look (now a.m s) k = some v)
    (hx : s.computed → a.its x = some k) : ∃ l, at_ s k x = some l ∧ c.load l = some v := by
  have hlt : k < s.len := by have := look_lt hl; rwa [now_length] at this
  cases s with
  | refs n =>
    have hk' : k < n := hlt
    simp only [look, now, List.getElem?_map, List.getElem?_range hk', Option.map_some, Option.join_some] at hl
    exact ⟨.opt k, rfl, by simp only [State.load, h.mem, hl]⟩
  | ptrs ps b =>
    have hk' : k < ps.length := hlt
    simp only [look, now, List.getElem?_map, List.getElem?_eq_getElem hk', Option.map_some, Option.join_some] at hl
    cases hp : ps[k] with
    | none => simp [hp] at hl
    | some p =>
      rw [hp] at hl
      refine ⟨.obj p, by simp [at_, List.getElem?_eq_getElem hk', hp], ?_⟩
      simp only [State.load, h.mem]
      simpa using hl
  | vals xs =>
    have hk' : k < xs.length := hlt
    obtain ⟨it, h1, h2, h3⟩ := h.get (hx trivial)
    obtain ⟨pos, ca⟩ := it
    simp only at h2
    subst h2
    have hc : ca = some (.val xs[pos]) := by
      have := h3.2 hlt
      simpa [Src.elem, List.getElem?_eq_getElem hk'] using this
    subst hc
    simp only [look, now, List.getElem?_eq_getElem hk', Option.join_some] at hl
    exact ⟨.cached x, rfl, by simp only [State.load, h1, hl]⟩

theorem at_put {s : Src V} {m : Mem V} {k x : Nat} {w : V} (hl : look (now m s) k = some w) (hw : s.writable ∨ s.pointsAnew) {l : Loc}
    (h : at_ s k x = some l) (v : V) : m.put v l = some (change m v s k) := by
  have hlt : k < s.len := by have := look_lt hl; rwa [now_length] at this
  cases s with
  | refs n =>
    have hk' : k < n := hlt
    simp only [look, now, List.getElem?_map, List.getElem?_range hk', Option.map_some, Option.join_some] at hl
    simp only [at_, Option.some.injEq] at h
    subst h
    simp only [Mem.put, hl, Option.map_some, change]
  | ptrs ps b =>
    have hk' : k < ps.length := hlt
    simp only [at_, List.getElem?_eq_getElem hk', Option.join_some] at h
    cases hp : ps[k] with
    | none => simp [hp] at h
    | some p =>
      simp only [hp, Option.map_some, Option.some.injEq] at h
      subst h
      simp only [Mem.put, change, List.getElem?_eq_getElem hk', hp]
  | vals xs => exact absurd hw (by simp [Src.writable, Src.pointsAnew])

theorem change_same {s : Src V} {m : Mem V} {k : Nat} {w : V} (hl : look (now m s) k = some w) : change m w s k = m := by
  have hlt : k < s.len := by have := look_lt hl; rwa [now_length] at this
  cases s with
  | refs n =>
    have hk' : k < n := hlt
    simp only [look, now, List.getElem?_map, List.getElem?_range hk', Option.map_some, Option.join_some] at hl
    have : upd m.opt k (some w) = m.opt := by
      funext j
      by_cases e : j = k
      · subst e; rw [upd_same, hl]
      · rw [upd_other _ _ e]
    simp only [change, this]
  | ptrs ps b =>
    have hk' : k < ps.length := hlt
    simp only [look, now, List.getElem?_map, List.getElem?_eq_getElem hk', Option.map_some, Option.join_some] at hl
    cases hp : ps[k] with
    | none => simp [hp] at hl
    | some p =>
      rw [hp] at hl
      have hl' : m.obj p = w := by simpa using hl
      have : upd m.obj p w = m.obj := by
        funext j
        by_cases e : j = p
        · subst e; rw [upd_same, hl']
        · rw [upd_other _ _ e]
      simp only [change, List.getElem?_eq_getElem hk', hp, this]
  | vals xs => rfl

theorem Rel.setMem {s : Src V} {c : State V} {a : Spec V} (h : Rel s c a) (m : Mem V) : Rel s { c with m := m } { a with m := m } :=
  ⟨rfl, h.its, h.good, h.refs⟩

/-- Every step does what it is on positions. -/
theorem Step.good {s : Src V} {mv : V → V} {c : State V} {a : Spec V} (h : Rel s c a) (o : Step V) (hp : o.Pre s mv a) :
    ∃ c', o.run s mv c = some ((o.mean s a).1, c') ∧ Rel s c' (o.mean s a).2 := by
  cases o with
  | start x =>
    obtain ⟨it, h1, h2, h3⟩ := first_eq s c.m
    refine ⟨{ c with its := upd c.its x (some it) }, by simp only [Step.run, h1, Option.map_some, Step.mean], ?_⟩
    rw [h.mem] at h2
    exact h.setIt x h2 h3
  | copy x y =>
    obtain ⟨k, hk⟩ := Option.isSome_iff_exists.mp hp
    obtain ⟨it, h1, h2, h3⟩ := h.get hk
    refine ⟨{ c with its := upd c.its y (some it) }, by simp only [Step.run, h1, Option.map_some, Step.mean], ?_⟩
    simp only [Step.mean, hk]
    exact h.setIt y h2 h3
  | next x =>
    obtain ⟨k, hk, hlt⟩ := hp
    obtain ⟨it, h1, h2, h3⟩ := h.get hk
    rw [now_length] at hlt
    obtain ⟨it', h4, h5, h6⟩ := succ_eq c.m (s := s) (it := it) (by omega)
    refine ⟨{ c with its := upd c.its x (some it') }, by simp only [Step.run, h1, h4, Option.map_some, Step.mean], ?_⟩
    simp only [Step.mean, hk, Option.map_some]
    rw [h.mem, h2] at h5
    exact h.setIt x h5 h6
  | drop x =>
    obtain ⟨k, hk⟩ := Option.isSome_iff_exists.mp hp
    obtain ⟨it, h1, h2, h3⟩ := h.get hk
    refine ⟨{ c with its := upd c.its x none }, by simp only [Step.run, h1, Option.map_some, Step.mean], h.mem, fun y => ?_, fun y it' => ?_, h.refs⟩
    · by_cases e : y = x
      · subst e; simp [Step.mean, upd_same]
      · simp only [Step.mean, upd_other _ _ e]; exact h.its y
    · by_cases e : y = x
      · subst e; simp [upd_same]
      · simp only [upd_other _ _ e]; exact h.good y it'
  | read x =>
    obtain ⟨k, v, hk, hv⟩ := hp
    obtain ⟨it, h1, h2, h3⟩ := h.get hk
    subst h2
    obtain ⟨l, h4, h5⟩ := h.load hv (fun _ => hk)
    have hd := (deref_eq (m := c.m) h3 (by rw [h.mem]; exact hv) x).1.trans h4
    refine ⟨c, ?_, h⟩
    simp only [Step.run, h1, hd, h5, Option.map_some, Step.mean, hk, Option.bind_some, hv, Option.elim_some]
  | take x =>
    obtain ⟨k, v, hk, hv, hm⟩ := hp
    obtain ⟨it, h1, h2, h3⟩ := h.get hk
    subst h2
    obtain ⟨l, h4, h5⟩ := h.load hv (fun _ => hk)
    have hd := (deref_eq (m := c.m) h3 (by rw [h.mem]; exact hv) x).1.trans h4
    by_cases hmv : s.pointsAnew
    · have hms : moves s = true := by cases s <;> simp_all [moves, Src.pointsAnew]
      have hput : c.m.put (mv v) l = some c.m := by
        rw [hm hmv, at_put (by rw [h.mem]; exact hv) (Or.inr hmv) h4, change_same (by rw [h.mem]; exact hv)]
      refine ⟨c, ?_, h⟩
      simp only [Step.run, h1, hd, h5, hms, if_true, hput, Option.map_some, Step.mean, hk, Option.bind_some, hv, Option.elim_some]
    · have hms : moves s = false := by cases s <;> simp_all [moves, Src.pointsAnew]
      refine ⟨c, ?_, h⟩
      simp only [Step.run, h1, hd, h5, hms, Bool.false_eq_true, if_false, Step.mean, hk, Option.bind_some, hv, Option.elim_some]
  | write x v =>
    obtain ⟨k, w, hk, hv, hw⟩ := hp
    obtain ⟨it, h1, h2, h3⟩ := h.get hk
    subst h2
    obtain ⟨l, h4, h5⟩ := h.load hv (fun _ => hk)
    have hd := (deref_eq (m := c.m) h3 (by rw [h.mem]; exact hv) x).1.trans h4
    have hput := at_put hv (Or.inl hw) h4 v
    rw [← h.mem] at hput
    refine ⟨{ c with m := change c.m v s it.pos }, ?_, ?_⟩
    · simp only [Step.run, h1, hd, hput, Option.map_some, Step.mean]
    · simp only [Step.mean, hk, Option.elim_some, h.mem]
      exact h.setMem _
  | same x y =>
    obtain ⟨k, hk⟩ := Option.isSome_iff_exists.mp hp.1
    obtain ⟨j, hj⟩ := Option.isSome_iff_exists.mp hp.2
    obtain ⟨it, h1, h2, _⟩ := h.get hk
    obtain ⟨it', h3, h4, _⟩ := h.get hj
    refine ⟨c, ?_, h⟩
    simp only [Step.run, h1, h3, Step.mean, hk, hj, It.same, h2, h4, Option.some.injEq, beq_eq_decide]
  | atEnd x =>
    obtain ⟨k, hk⟩ := Option.isSome_iff_exists.mp hp
    obtain ⟨it, h1, h2, _⟩ := h.get hk
    refine ⟨c, ?_, h⟩
    simp only [Step.run, h1, Option.map_some, Step.mean, hk, It.atEnd, h2, Option.some.injEq, beq_eq_decide, now_length]
  | bind r x =>
    obtain ⟨k, v, hk, hv⟩ := hp
    obtain ⟨it, h1, h2, h3⟩ := h.get hk
    subst h2
    obtain ⟨l, h4, h5⟩ := h.load hv (fun _ => hk)
    have hd := (deref_eq (m := c.m) h3 (by rw [h.mem]; exact hv) x).1.trans h4
    refine ⟨{ c with refs := upd c.refs r (some l) }, by simp only [Step.run, h1, hd, Option.map_some, Step.mean], h.mem, h.its, h.good, fun q => ?_⟩
    by_cases e : q = r
    · subst e; simp only [Step.mean, upd_same, hk, Option.map_some, Option.bind_some, h4]
    · simp only [Step.mean, upd_other _ _ e]; exact h.refs q
  | load r =>
    obtain ⟨k, x, v, hk, hv, hx⟩ := hp
    obtain ⟨l, h4, h5⟩ := h.load hv hx
    have hr : c.refs r = some l := by rw [h.refs r, hk]; exact h4
    refine ⟨c, ?_, h⟩
    simp only [Step.run, hr, h5, Option.map_some, Step.mean, hk, Option.bind_some, hv, Option.elim_some]
  | store r v =>
    obtain ⟨k, x, w, hk, hv, hw⟩ := hp
    have hc : s.computed → a.its x = some k := by cases s <;> simp_all [Src.writable, Src.computed]
    obtain ⟨l, h4, h5⟩ := h.load hv hc
    have hr : c.refs r = some l := by rw [h.refs r, hk]; exact h4
    have hput := at_put hv (Or.inl hw) h4 v
    rw [← h.mem] at hput
    refine ⟨{ c with m := change c.m v s k }, ?_, ?_⟩
    · simp only [Step.run, hr, hput, Option.map_some, Step.mean]
    · simp only [Step.mean, hk, Option.elim_some, h.mem]
      exact h.setMem _
  | setOpt k v =>
    refine ⟨_, rfl, ?_⟩
    simp only [Step.mean, ← h.mem]
    exact h.setMem _
  | setObj p v =>
    refine ⟨_, rfl, ?_⟩
    simp only [Step.mean, ← h.mem]
    exact h.setMem _

/-- Every program. -/
theorem program {A : Type} {s : Src V} {mv : V → V} (p : Prog V A) : ∀ {c : State V} {a : Spec V}, Rel s c a → p.Pre s mv a →
    ∃ c', p.run s mv c = some ((p.mean s a).1, c') ∧ Rel s c' (p.mean s a).2 := by
  induction p with
  | ret x => exact fun h _ => ⟨_, rfl, h⟩
  | step o k ih =>
    intro c a h hp
    obtain ⟨c', h1, h2⟩ := o.good (mv := mv) h hp.1
    obtain ⟨c'', h3, h4⟩ := ih (o.mean s a).1 h2 hp.2
    exact ⟨c'', by simp only [Prog.run, h1]; exact h3, h4⟩

/-- Without iterators and references. -/
def State.init (m : Mem V) : State V := ⟨m, fun _ => none, fun _ => none⟩

/-- Without iterators and references. -/
def Spec.init (m : Mem V) : Spec V := ⟨m, fun _ => none, fun _ => none⟩

theorem start_rel (s : Src V) (m : Mem V) : Rel s (State.init m) (Spec.init m) :=
  ⟨rfl, fun _ => rfl, fun _ _ e => absurd e (by simp [State.init]), fun _ => rfl⟩

/-! ## The theorems -/

/-- C113, the specification: the next position is the first one that has a value, or the end. -/
theorem C113_stop (l : List (Option V)) (k : Nat) (hk : k ≤ l.length) :
    k ≤ stop l k ∧ stop l k ≤ l.length ∧ (∀ j, k ≤ j → j < stop l k → look l j = none) ∧ (stop l k < l.length → (look l (stop l k)).isSome) := by
  refine ⟨le_stop l k, stop_le hk, ?_⟩
  obtain ⟨d, hd⟩ : ∃ d, l.length = k + d := ⟨l.length - k, by omega⟩
  induction d generalizing k with
  | zero =>
    rw [show k = l.length by omega, stop_ge]
    exact ⟨fun j h1 h2 => by omega, fun h => by omega⟩
  | succ d ih =>
    cases hl : look l k with
    | some v =>
      rw [stop_some hl]
      exact ⟨fun j h1 h2 => by omega, fun _ => by simp [hl]⟩
    | none =>
      rw [stop_none (by omega) hl]
      obtain ⟨h1, h2⟩ := ih (k + 1) (by omega) (by omega)
      refine ⟨fun j h3 h4 => ?_, h2⟩
      by_cases e : j = k
      · rw [e]; exact hl
      · exact h1 j (by omega) h4

example : stop [none, some 5, none, none, some 7, none] 2 = 4 ∧ stop [none, some 5, none, none, some 7, none] 5 = 6 := by decide

/-- C113, partial: a program that starts without iterators, with any number of iterators that are copied, incremented, compared and
dereferenced in any order, references that are kept, and elements that change in between, sees what it sees of positions in a list of
optional values. Not included is what references show of computed values after their iterator has changed, and what is left of the values
that computed pointers point to when they are taken; these are violated, see below. -/
theorem C113_programs_partial {A : Type} (s : Src V) (mv : V → V) (m : Mem V) (p : Prog V A) (hp : p.Pre s mv (Spec.init m)) :
    ∃ c', p.run s mv (State.init m) = some ((p.mean s (Spec.init m)).1, c') ∧ c'.m = (p.mean s (Spec.init m)).2.m := by
  obtain ⟨c', h1, h2⟩ := program p (start_rel s m) hp
  exact ⟨c', h1, h2.mem⟩

/-- `for (; x != end; ++x) { use(*x); }` for at most so many steps, with the values in order. -/
def each (x : Nat) : Nat → List V → Prog V (List V)
  | 0, acc => .ret acc
  | f + 1, acc =>
    .step (.atEnd x) fun r =>
      match r with
      | .flag false =>
        .step (.read x) fun r =>
          match r with
          | .val v => .step (.next x) fun _ => each x f (acc ++ [v])
          | _ => .ret acc
      | _ => .ret acc

/-- `for (auto && v : view) { use(v); }`. -/
def pass (x f : Nat) : Prog V (List V) := .step (.start x) fun _ => each x f []

theorem drop_stop (l : List (Option V)) (k : Nat) : (l.drop (stop l k)).filterMap id = (l.drop k).filterMap id := by
  unfold stop
  rw [← List.drop_drop]
  generalize l.drop k = r
  induction r with
  | nil => rfl
  | cons e r ih =>
    cases e with
    | none => simpa using ih
    | some v => simp

theorem each_mean (s : Src V) (mv : V → V) (x : Nat) : ∀ (f : Nat) (a : Spec V) (k : Nat) (acc : List V), a.its x = some k →
    k ≤ (now a.m s).length → stop (now a.m s) k = k → (now a.m s).length < k + f →
    (each x f acc).Pre s mv a ∧
      (each x f acc).mean s a = (acc ++ ((now a.m s).drop k).filterMap id, { a with its := upd a.its x (some (now a.m s).length) }) := by
  intro f
  induction f with
  | zero => intro a k acc _ h2 _ h4; omega
  | succ f ih =>
    intro a k acc h1 h2 h3 h4
    by_cases he : k = (now a.m s).length
    · have hr : ((Step.atEnd x).mean s a) = (.flag true, a) := by simp [Step.mean, h1, he]
      refine ⟨?_, ?_⟩
      · simp only [each, Prog.Pre, hr]
        exact ⟨by simp [Step.Pre, h1], trivial⟩
      · have hu : upd a.its x (some (now a.m s).length) = a.its := by
          funext y
          by_cases e : y = x
          · subst e; rw [upd_same, h1, he]
          · rw [upd_other _ _ e]
        simp only [each, Prog.mean, hr, hu, he, List.drop_length, List.filterMap_nil, List.append_nil]
    · have hlt : k < (now a.m s).length := by omega
      have hv : (look (now a.m s) k).isSome := by
        have := (C113_stop (now a.m s) k h2).2.2.2
        rw [h3] at this
        exact this hlt
      obtain ⟨v, hv⟩ := Option.isSome_iff_exists.mp hv
      have hr : ((Step.atEnd x).mean s a) = (.flag false, a) := by simp [Step.mean, h1, he]
      have hr2 : ((Step.read x).mean s a) = (.val v, a) := by simp [Step.mean, h1, hv]
      have hr3 : ((Step.next x).mean s a) = (.unit, { a with its := upd a.its x (some (stop (now a.m s) (k + 1))) }) := by simp [Step.mean, h1]
      obtain ⟨i1, i2⟩ := ih { a with its := upd a.its x (some (stop (now a.m s) (k + 1))) } (stop (now a.m s) (k + 1)) (acc ++ [v])
        (upd_same _ _ _) (stop_le hlt) (by
          rcases Nat.lt_or_ge (stop (now a.m s) (k + 1)) (now a.m s).length with hc | hc
          · obtain ⟨w, hw⟩ := Option.isSome_iff_exists.mp ((C113_stop (now a.m s) (k + 1) hlt).2.2.2 hc)
            exact stop_some hw
          · have := stop_le (l := now a.m s) (k := k + 1) hlt
            rw [show stop (now a.m s) (k + 1) = (now a.m s).length by omega]
            exact stop_ge _)
        (by have := le_stop (now a.m s) (k + 1); show (now a.m s).length < _; omega)
      refine ⟨?_, ?_⟩
      · simp only [each, Prog.Pre, hr, hr2, hr3]
        exact ⟨by simp [Step.Pre, h1], ⟨k, v, h1, hv⟩, ⟨k, h1, hlt⟩, i1⟩
      · simp only [each, Prog.mean, hr, hr2, hr3]
        rw [i2]
        have hd : ((now a.m s).drop k).filterMap id = v :: ((now a.m s).drop (k + 1)).filterMap id := by
          rw [List.drop_eq_getElem_cons hlt]
          have : (now a.m s)[k] = some v := by
            have := hv
            rw [look, List.getElem?_eq_getElem hlt] at this
            simpa using this
          rw [this]
          simp
        have hu : upd (upd a.its x (some (stop (now a.m s) (k + 1)))) x (some (now a.m s).length) = upd a.its x (some (now a.m s).length) := by
          funext y
          by_cases e : y = x
          · subst e; rw [upd_same, upd_same]
          · rw [upd_other _ _ e, upd_other _ _ e, upd_other _ _ e]
        simp only [drop_stop, hd, hu, List.append_assoc, List.singleton_append]

/-- C113: a loop over the view sees the values of the optionals that have one, in order, whatever other iterators and references there are,
which stay as they are. It changes nothing, so a second loop sees the same. -/
theorem C113_loop {s : Src V} (mv : V → V) {c : State V} {a : Spec V} (h : Rel s c a) (x f : Nat) (hf : s.len < f) :
    ∃ c', (pass x f).run s mv c = some ((now c.m s).filterMap id, c') ∧ c'.m = c.m ∧ c'.refs = c.refs ∧
      (∀ y, y ≠ x → (c'.its y).map It.pos = (c.its y).map It.pos) ∧
      ∃ c'', (pass x f).run s mv c' = some ((now c.m s).filterMap id, c'') ∧ c''.m = c.m := by
  have once : ∀ {c : State V} {a : Spec V}, Rel s c a → ∃ c', (pass x f).run s mv c = some ((now c.m s).filterMap id, c') ∧
      Rel s c' { a with its := upd a.its x (some (now a.m s).length) } := by
    intro c a h
    obtain ⟨h1, h2⟩ := each_mean s mv x f { a with its := upd a.its x (some (stop (now a.m s) 0)) } (stop (now a.m s) 0) [] (upd_same _ _ _)
      (stop_le (Nat.zero_le _)) (by
        rcases Nat.lt_or_ge (stop (now a.m s) 0) (now a.m s).length with hc | hc
        · obtain ⟨w, hw⟩ := Option.isSome_iff_exists.mp ((C113_stop (now a.m s) 0 (Nat.zero_le _)).2.2.2 hc)
          exact stop_some hw
        · have := stop_le (l := now a.m s) (k := 0) (Nat.zero_le _)
          show stop (now a.m s) (stop (now a.m s) 0) = _
          rw [show stop (now a.m s) 0 = (now a.m s).length by omega]
          exact stop_ge _)
      (by have := now_length a.m s; show (now a.m s).length < _; omega)
    obtain ⟨c', h3, h4⟩ := program (pass x f) (mv := mv) h ⟨trivial, h1⟩
    have hm : (pass x f).mean s a = ((now a.m s).filterMap id, { a with its := upd a.its x (some (now a.m s).length) }) := by
      refine Eq.trans (show (pass x f).mean s a = _ from h2) ?_
      have hu : upd (upd a.its x (some (stop (now a.m s) 0))) x (some (now a.m s).length) = upd a.its x (some (now a.m s).length) := by
        funext y
        by_cases e : y = x
        · subst e; rw [upd_same, upd_same]
        · rw [upd_other _ _ e, upd_other _ _ e, upd_other _ _ e]
      simp only [drop_stop, List.drop_zero, List.nil_append, hu]
    rw [hm] at h3 h4
    refine ⟨c', ?_, h4⟩
    rw [h3, h.mem]
  obtain ⟨c', h1, h2⟩ := once h
  obtain ⟨c'', h3, h4⟩ := once h2
  have hm : c'.m = c.m := h2.mem.trans h.mem.symm
  refine ⟨c', h1, hm, ?_, fun y hy => ?_, c'', by rw [h3, hm], h4.mem.trans h.mem.symm⟩
  · funext r
    rw [h2.refs r, h.refs r]
  · rw [h2.its y, h.its y]
    simp only [upd_other _ _ hy]

/-- `for (auto & v : view) { v = g(v); }` for at most so many steps. -/
def changeEach (g : V → V) (x : Nat) : Nat → Prog V Unit
  | 0 => .ret ()
  | f + 1 =>
    .step (.atEnd x) fun r =>
      match r with
      | .flag false =>
        .step (.read x) fun r =>
          match r with
          | .val v => .step (.write x (g v)) fun _ => .step (.next x) fun _ => changeEach g x f
          | _ => .ret ()
      | _ => .ret ()

/-- The optional objects below `k` still have to be changed, the others are as they shall be. -/
def partly (g : V → V) (n k : Nat) (o : Nat → Option V) : Nat → Option V := fun j => if k ≤ j ∧ j < n then (o j).map g else o j

theorem look_refs (n k : Nat) (m : Mem V) : look (now m (.refs n)) k = if k < n then m.opt k else none := by
  unfold look now
  by_cases h : k < n
  · simp [h]
  · rw [if_neg h, List.getElem?_eq_none (by simp; omega)]
    rfl

theorem changeEach_mean (g : V → V) (mv : V → V) (n x : Nat) : ∀ (f : Nat) (a : Spec V) (k : Nat), a.its x = some k →
    k ≤ n → stop (now a.m (.refs n)) k = k → n < k + f →
    (changeEach g x f).Pre (.refs n) mv a ∧ ((changeEach g x f).mean (.refs n) a).2.m.opt = partly g n k a.m.opt ∧
      ((changeEach g x f).mean (.refs n) a).2.m.obj = a.m.obj ∧ ((changeEach g x f).mean (.refs n) a).2.refs = a.refs := by
  intro f
  induction f with
  | zero => intro a k _ h2 _ h4; omega
  | succ f ih =>
    intro a k h1 h2 h3 h4
    have hlen := now_length a.m (.refs n : Src V)
    simp only [Src.len] at hlen
    by_cases he : k = n
    · have hr : ((Step.atEnd x).mean (.refs n) a) = (.flag true, a) := by simp [Step.mean, h1, he, hlen]
      refine ⟨?_, ?_⟩
      · simp only [changeEach, Prog.Pre, hr]
        exact ⟨by simp [Step.Pre, h1], trivial⟩
      · simp only [changeEach, Prog.mean, hr]
        refine ⟨?_, trivial, trivial⟩
        funext j
        simp only [partly]
        rw [if_neg (by omega)]
    · have hlt : k < n := by omega
      have hv : (look (now a.m (.refs n)) k).isSome := by
        have := (C113_stop (now a.m (.refs n)) k (by omega)).2.2.2
        rw [h3] at this
        exact this (by omega)
      obtain ⟨v, hv⟩ := Option.isSome_iff_exists.mp hv
      have hr : ((Step.atEnd x).mean (.refs n) a) = (.flag false, a) := by simp [Step.mean, h1, he, hlen]
      have hr2 : ((Step.read x).mean (.refs n) a) = (.val v, a) := by simp [Step.mean, h1, hv]
      have hr3 : ((Step.write x (g v)).mean (.refs n) a) = (.unit, { a with m := { a.m with opt := upd a.m.opt k (some (g v)) } }) := by
        simp [Step.mean, h1, change]
      generalize hb : ({ a with m := { a.m with opt := upd a.m.opt k (some (g v)) } } : Spec V) = b at hr3
      have hb1 : b.its x = some k := by rw [← hb]; exact h1
      have hlenb := now_length b.m (.refs n : Src V)
      simp only [Src.len] at hlenb
      have hr4 : ((Step.next x).mean (.refs n) b) = (.unit, { b with its := upd b.its x (some (stop (now b.m (.refs n)) (k + 1))) }) := by
        simp [Step.mean, hb1]
      obtain ⟨i1, i2, i3, i4⟩ := ih { b with its := upd b.its x (some (stop (now b.m (.refs n)) (k + 1))) } (stop (now b.m (.refs n)) (k + 1))
        (upd_same _ _ _) (by have := stop_le (l := now b.m (.refs n)) (k := k + 1) (by omega); omega) (by
          show stop (now b.m (.refs n)) (stop (now b.m (.refs n)) (k + 1)) = _
          rcases Nat.lt_or_ge (stop (now b.m (.refs n)) (k + 1)) (now b.m (.refs n)).length with hc | hc
          · obtain ⟨w, hw⟩ := Option.isSome_iff_exists.mp ((C113_stop (now b.m (.refs n)) (k + 1) (by omega)).2.2.2 hc)
            exact stop_some hw
          · have := stop_le (l := now b.m (.refs n)) (k := k + 1) (by omega)
            rw [show stop (now b.m (.refs n)) (k + 1) = (now b.m (.refs n)).length by omega]
            exact stop_ge _)
        (by have := le_stop (now b.m (.refs n)) (k + 1); omega)
      refine ⟨?_, ?_, ?_, ?_⟩
      · simp only [changeEach, Prog.Pre, hr, hr2, hr3, hr4]
        exact ⟨by simp [Step.Pre, h1], ⟨k, v, h1, hv⟩, ⟨k, v, h1, hv, trivial⟩, ⟨k, hb1, by omega⟩, i1⟩
      · simp only [changeEach, Prog.mean, hr, hr2, hr3, hr4]
        rw [i2]
        have hvk : a.m.opt k = some v := by rw [look_refs, if_pos hlt] at hv; exact hv
        funext j
        have hbj : b.m.opt = upd a.m.opt k (some (g v)) := by rw [← hb]
        simp only [partly, hbj]
        by_cases e : j = k
        · subst e
          have := le_stop (now b.m (.refs n)) (j + 1)
          rw [if_neg (by omega), if_pos (by omega), upd_same, hvk]
          rfl
        · rw [upd_other _ _ e]
          by_cases hj : k ≤ j ∧ j < n
          · rw [if_pos hj]
            by_cases hs : stop (now b.m (.refs n)) (k + 1) ≤ j
            · rw [if_pos ⟨hs, hj.2⟩]
            · have hno := (C113_stop (now b.m (.refs n)) (k + 1) (by omega)).2.2.1 j (by omega) (by omega)
              rw [look_refs, if_pos hj.2, hbj, upd_other _ _ e] at hno
              rw [if_neg (by omega), hno]
              rfl
          · have := le_stop (now b.m (.refs n)) (k + 1)
            rw [if_neg hj, if_neg (by omega)]
      · simp only [changeEach, Prog.mean, hr, hr2, hr3, hr4]
        rw [i3, ← hb]
      · simp only [changeEach, Prog.mean, hr, hr2, hr3, hr4]
        rw [i4, ← hb]

/-- C113: a loop that assigns to what it sees changes every optional object that has a value, and only those. -/
theorem C113_update_loop (g : V → V) {n : Nat} (mv : V → V) {c : State V} {a : Spec V} (h : Rel (.refs n) c a) (x f : Nat) (hf : n < f) :
    ∃ c', (Prog.step (.start x) fun _ => changeEach g x f).run (.refs n) mv c = some ((), c') ∧ c'.m.obj = c.m.obj ∧ c'.refs = c.refs ∧
      ∀ j, c'.m.opt j = if j < n then (c.m.opt j).map g else c.m.opt j := by
  have hlen := now_length a.m (.refs n : Src V)
  simp only [Src.len] at hlen
  obtain ⟨h1, h2, h5, h6⟩ := changeEach_mean g mv n x f { a with its := upd a.its x (some (stop (now a.m (.refs n)) 0)) } (stop (now a.m (.refs n)) 0) (upd_same _ _ _)
    (by have := stop_le (l := now a.m (.refs n)) (k := 0) (Nat.zero_le _); omega) (by
      show stop (now a.m (.refs n)) (stop (now a.m (.refs n)) 0) = _
      rcases Nat.lt_or_ge (stop (now a.m (.refs n)) 0) (now a.m (.refs n)).length with hc | hc
      · obtain ⟨w, hw⟩ := Option.isSome_iff_exists.mp ((C113_stop (now a.m (.refs n)) 0 (Nat.zero_le _)).2.2.2 hc)
        exact stop_some hw
      · have := stop_le (l := now a.m (.refs n)) (k := 0) (Nat.zero_le _)
        rw [show stop (now a.m (.refs n)) 0 = (now a.m (.refs n)).length by omega]
        exact stop_ge _)
    (by omega)
  obtain ⟨c', h3, h4⟩ := program (Prog.step (.start x) fun _ => changeEach g x f) (mv := mv) h ⟨trivial, h1⟩
  have hm : ((Prog.step (.start x) fun _ => changeEach g x f).mean (.refs n) a).2 =
    ((changeEach g x f).mean (.refs n) { a with its := upd a.its x (some (stop (now a.m (.refs n)) 0)) }).2 := rfl
  rw [hm] at h4
  refine ⟨c', h3, by rw [h4.mem, h5, h.mem], ?_, fun j => ?_⟩
  · funext r
    rw [h4.refs r, h.refs r, h6]
  · rw [h4.mem, h2, h.mem]
    simp only [partly]
    by_cases hj : j < n
    · rw [if_pos hj]
      by_cases hs : stop (now a.m (.refs n)) 0 ≤ j
      · rw [if_pos ⟨hs, hj⟩]
      · have hno := (C113_stop (now a.m (.refs n)) 0 (Nat.zero_le _)).2.2.1 j (by omega) (by omega)
        rw [look_refs, if_pos hj] at hno
        rw [if_neg (by omega), hno]
        rfl
    · rw [if_neg hj, if_neg (by omega)]

/-- Three optional objects, the second without value. -/
def exMem : Mem Nat := ⟨fun k => if k = 0 then some 10 else if k = 2 then some 12 else none, fun p => 100 + p⟩

/-- Two iterators, one of which goes on while the other stays; an element that is reset and another that gets a value while they are used; a
reference that is kept. -/
def exProg : Prog Nat (Ans Nat × Ans Nat × Ans Nat) :=
  .step (.start 0) fun _ => .step (.copy 0 1) fun _ => .step (.bind 0 0) fun _ => .step (.setOpt 1 (some 11)) fun _ =>
  .step (.next 1) fun _ => .step (.write 1 21) fun _ => .step (.setOpt 2 none) fun _ => .step (.store 0 20) fun _ =>
  .step (.read 1) fun u => .step (.next 1) fun _ => .step (.atEnd 1) fun v => .step (.read 0) fun w => .ret (u, v, w)

example : exProg.Pre (.refs 3) (fun _ => 0) (Spec.init exMem) :=
  ⟨trivial, rfl, ⟨0, 10, rfl, rfl⟩, trivial, ⟨0, rfl, by decide⟩, ⟨1, 11, rfl, rfl, trivial⟩, trivial, ⟨0, 0, 10, rfl, rfl, trivial⟩,
    ⟨1, 21, rfl, rfl⟩, ⟨1, rfl, by decide⟩, rfl, ⟨0, 20, rfl, rfl⟩, trivial⟩

example : (exProg.run (.refs 3) (fun _ => 0) (State.init exMem)).map (·.1) = some (.val 21, .flag true, .val 20) := rfl

example : ((pass 0 4).run (.refs 3) (fun _ => 0) (State.init exMem)).map (·.1) = some [10, 12] := rfl

example : ((pass 0 5).run (.ptrs [none, some 7, none, some 3] true) (fun _ => 0) (State.init exMem)).map (·.1) = some [107, 103] := rfl

example : ((pass 0 4).run (.vals [some 1, none, some 2]) (fun _ => 0) (State.init exMem)).map (·.1) = some [1, 2] := rfl

/-- C113, violated by ranges of computed values (`by_value_range` of the static tests in `algorithms/remove_none.cpp`): a reference that an
iterator has returned does not stay valid when the iterator goes on. It refers to the cache in the iterator and shows the next value. -/
theorem C113_reference_violated {xs : List (Option V)} (mv : V → V) {c : State V} {a : Spec V} (h : Rel (.vals xs) c a) (x r : Nat) {k : Nat}
    (hx : a.its x = some k) {v w : V} (hv : look xs k = some v) (hw : look xs (stop xs (k + 1)) = some w) :
    ∃ c', (Prog.step (.bind r x) fun _ => .step (.next x) fun _ => .step (.load r) fun b => .ret b).run (.vals xs) mv c = some (.val w, c') := by
  obtain ⟨c1, h1, h2⟩ := Step.good (mv := mv) h (.bind r x) ⟨k, v, hx, hv⟩
  obtain ⟨c2, h3, h4⟩ := Step.good (mv := mv) h2 (.next x) ⟨k, hx, look_lt hv⟩
  have hr : c2.refs r = some (.cached x) := by
    rw [h4.refs r]
    simp [Step.mean, upd_same, hx, at_]
  obtain ⟨l, h5, h6⟩ := h4.load (k := stop xs (k + 1)) (x := x) (v := w) hw (fun _ => by simp [Step.mean, hx, upd_same, now])
  cases h5
  refine ⟨c2, ?_⟩
  simp only [Prog.run, h1, h3]
  simp only [Step.run, hr, h6, Option.map_some]

/-- `auto && r = *x; ++x; use(r)` is the value 2, not 1. -/
example : ((Prog.step (.start 0) fun _ => .step (.bind 0 0) fun _ => .step (.next 0) fun _ => .step (.load 0) fun b => .ret b).run
    (.vals [some 1, none, some 2]) (fun _ => 0) (State.init exMem)).map (·.1) = some (.val 2) := rfl

/-- C113, violated: with the iterator the value is gone, so `*view.begin()` is a reference to an object that no longer exists. -/
theorem C113_temporary_violated {xs : List (Option V)} (mv : V → V) {c : State V} {a : Spec V} (h : Rel (.vals xs) c a) (x r : Nat) {k : Nat}
    (hx : a.its x = some k) {v : V} (hv : look xs k = some v) :
    (Prog.step (.bind r x) fun _ => .step (.drop x) fun _ => .step (.load r) fun b => .ret b).run (.vals xs) mv c = none := by
  obtain ⟨c1, h1, h2⟩ := Step.good (mv := mv) h (.bind r x) ⟨k, v, hx, hv⟩
  obtain ⟨c2, h3, h4⟩ := Step.good (mv := mv) h2 (.drop x) (by simp [Step.Pre, Step.mean, hx])
  have hr : c2.refs r = some (.cached x) := by
    rw [h4.refs r]
    simp [Step.mean, upd_same, hx, at_]
  have hi : c2.its x = none := by
    have := h4.its x
    simp only [Step.mean, upd_same] at this
    cases hc : c2.its x with
    | none => rfl
    | some it => simp [hc] at this
  simp only [Prog.run, h1, h3]
  simp only [Step.run, hr, State.load, hi, Option.map_none]

/-- C113, violated by ranges of computed pointers: constructing a value from what the view shows moves from the object that the pointer points
to, which belongs to neither the view nor the range below. -/
theorem C113_pointers_violated (mv : V → V) {ps : List (Option Nat)} {c : State V} {a : Spec V} (h : Rel (.ptrs ps true) c a) (x : Nat) {k p : Nat}
    (hx : a.its x = some k) (hp : ps[k]? = some (some p)) :
    ∃ c', (Step.take x).run (.ptrs ps true) mv c = some (.val (c.m.obj p), c') ∧ c'.m.obj p = mv (c.m.obj p) := by
  have hv : look (now a.m (.ptrs ps true)) k = some (a.m.obj p) := by simp [look, now, hp]
  obtain ⟨it, h1, h2, h3⟩ := h.get hx
  subst h2
  obtain ⟨l, h4, h5⟩ := h.load hv (fun _ => hx)
  have hd := (deref_eq (m := c.m) h3 (by rw [h.mem]; exact hv) x).1.trans h4
  have hput := at_put hv (Or.inr rfl) h4 (mv (a.m.obj p))
  rw [← h.mem] at hput h5
  refine ⟨{ c with m := change c.m (mv (c.m.obj p)) (.ptrs ps true) it.pos }, ?_, ?_⟩
  · simp only [Step.run, h1, hd, h5, moves, if_true, hput, Option.map_some]
  · simp only [change, hp, upd_same]

/-- Two containers that are filled from the same range of pointers: the second one gets what the first has left. -/
example : ((Prog.step (.start 0) fun _ => .step (.take 0) fun u => .step (.start 1) fun _ => .step (.take 1) fun v => .ret (u, v)).run
    (.ptrs [none, some 7] true) (fun _ => 0) (State.init exMem)).map (·.1) = some (.val 107, .val 0) := rfl

end Verif.Views.Nones
