import Verif.Views.Compare

/-!
# The string types (property C72)

`containers/static_string.cpp`, `containers/string_view.cpp`, `containers/string.cpp`: strings in read-only memory, views and owning strings, their conversions into each other and into
the string types of the standard library, their comparisons and hashes.

A `char` is given by the value of its byte; whether `char` is signed is a parameter, because it depends on the platform.
-/

namespace Verif.Strings

open Verif Verif.Views Verif.Algo

/-- The bytes of a `char`. -/
abbrev Byte := Fin 256

/-- The memory: the bytes at addresses from zero on. New objects are put at its end. -/
abbrev Memory := List Byte

/-- `maximum_array_size<char>` (`maximum_array_size.cpp` 15-21): `2^52 - 1`. -/
def maxSize : Nat := 4503599627370495

/-! ## Model -/

/-- Values of the string types. Each of them refers to characters in memory. -/
inductive Str
  /-- `static_string<size>` (`static_string.cpp` 31-75) -/
  | static (size ptr : Nat)
  /-- `static_null_terminated_string<size>` (`static_string.cpp` 89-152) -/
  | nullTerminated (size ptr : Nat)
  /-- `string_view` (`string_view.cpp` 44-125) -/
  | view (ptr size : Nat)
  /-- `string` (`string.cpp`), which owns its characters; how an `sbo_vector` keeps them is the subject of C30 -/
  | own (ptr size : Nat)
  /-- `std::string_view` -/
  | stdView (ptr size : Nat)
  /-- `std::string` -/
  | stdOwn (ptr size : Nat)
  /-- a contiguous `subrange` of `char` -/
  | sub (ptr size : Nat)
  /-- `char const *` -/
  | pointer (ptr : Nat)
deriving DecidableEq

/-- `data()` -/
def Str.data : Str → Nat
  | .static _ p | .nullTerminated _ p | .view p _ | .own p _ | .stdView p _ | .stdOwn p _ | .sub p _ | .pointer p => p

/-- `size()`; a pointer has none. -/
def Str.size? : Str → Option Nat
  | .static n _ | .nullTerminated n _ | .view _ n | .own _ n | .stdView _ n | .stdOwn _ n | .sub _ n => some n
  | .pointer _ => none

/-- `std::char_traits<char>::length`: the number of characters before the first null character. Reading outside of the memory is undefined. -/
def strlen (m : Memory) (ptr : Nat) : Res Nat :=
  if ptr + (m.drop ptr).findIdx (· == 0) < m.length then .ok ((m.drop ptr).findIdx (· == 0)) else .ub

/-- The types that a string can be converted to. -/
inductive Target
  | view | own | stdView | stdOwn | sub
deriving DecidableEq

/-- `bounded::assume_in_range<array_size_type<char>>(size)` -/
def assumeSize (n : Nat) : Res Nat := if n ≤ maxSize then .ok n else .ub

/-- A copy of `n` characters at the end of the memory. -/
def copyOut (m : Memory) (p n : Nat) : Res Memory := if p + n ≤ m.length then .ok (m ++ (m.drop p).take n) else .ub

/-- The conversion of a string into another type: `none` if there is none.
To `string_view`: `string_view.cpp` 47-89 and `string.cpp` 66-68. To `string`: `string.cpp` 37-48 and the constructors of `sbo_vector` from a range; a pointer is rejected (47-48). To `std::string_view`:
`static_string.cpp` 59-61 and 136-138, `string_view.cpp` 115-117, `string.cpp` 69-71, `subrange.cpp` 140-142. To `std::string`: `static_string.cpp` 65-67 and 142-144, otherwise the constructor of `std::string`
from what converts to `std::string_view`. To `subrange`: its constructor from a range (`subrange.cpp` 93-109). Running out of memory is left out. -/
def convert (m : Memory) : Str → Target → Option (Res (Memory × Str))
  | .static n p, .view => some (.ok (m, .view p n))
  | .nullTerminated n p, .view => some (.ok (m, .view p n))
  | .view p n, .view => some (.ok (m, .view p n))
  | .stdView p n, .view | .stdOwn p n, .view | .sub p n, .view | .own p n, .view => some ((assumeSize n).bind fun n => .ok (m, .view p n))
  | .pointer p, .view => some ((strlen m p).bind fun n => (assumeSize n).bind fun n => .ok (m, .view p n))
  | .pointer _, .own => none
  | .static n p, .own | .nullTerminated n p, .own | .view p n, .own | .own p n, .own | .stdView p n, .own | .stdOwn p n, .own | .sub p n, .own =>
    some ((assumeSize n).bind fun n => (copyOut m p n).bind fun m' => .ok (m', .own m.length n))
  | .static n p, .stdView | .nullTerminated n p, .stdView | .view p n, .stdView | .own p n, .stdView | .stdView p n, .stdView | .stdOwn p n, .stdView | .sub p n, .stdView =>
    some (.ok (m, .stdView p n))
  | .pointer p, .stdView => some ((strlen m p).bind fun n => .ok (m, .stdView p n))
  | .static n p, .stdOwn | .nullTerminated n p, .stdOwn | .view p n, .stdOwn | .own p n, .stdOwn | .stdView p n, .stdOwn | .stdOwn p n, .stdOwn | .sub p n, .stdOwn =>
    some ((copyOut m p n).bind fun m' => .ok (m', .stdOwn m.length n))
  | .pointer p, .stdOwn => some ((strlen m p).bind fun n => (copyOut m p n).bind fun m' => .ok (m', .stdOwn m.length n))
  | .static n p, .sub | .nullTerminated n p, .sub | .view p n, .sub | .own p n, .sub | .stdView p n, .sub | .stdOwn p n, .sub | .sub p n, .sub => some (.ok (m, .sub p n))
  | .pointer _, .sub => none

/-- A chain of conversions. -/
def convertAll (m : Memory) (s : Str) : List Target → Option (Res (Memory × Str))
  | [] => some (.ok (m, s))
  | t :: ts =>
    match convert m s t with
    | some (.ok (m', s')) => convertAll m' s' ts
    | r => r

/-! ### Literals -/

/-- The array of characters of a string literal, which the compiler puts into memory with a null character at its end. -/
def literal (m : Memory) (text : List Byte) : Memory × Nat × Nat := (m ++ text ++ [0], m.length, text.length + 1)

/-- `"..."_s` (`static_string.cpp` 77-87, 167-170): the template parameter is an object with an array without the last character, made from the array of the literal. -/
def literalS (m : Memory) (text : List Byte) : Memory × Str :=
  let (m, p, n) := literal m text
  let size := n - 1
  (m ++ (m.drop p).take size, .static size m.length)

/-- `"..."_null_terminated` (`static_string.cpp` 154-163, 172-175, with the assertion of line 97): the template parameter is an object with a copy of the whole array. -/
def literalNullTerminated (m : Memory) (text : List Byte) : Res (Memory × Str) :=
  let (m, p, n) := literal m text
  let q := m.length
  let m := m ++ (m.drop p).take n
  if m[q + (n - 1)]? = some 0 then .ok (m, .nullTerminated (n - 1) q) else .ub

/-- `"..."_sv` (`string_view.cpp` 129-131): the compiler passes the pointer and the size without the null character. -/
def literalSv (m : Memory) (text : List Byte) : Res (Memory × Str) :=
  let (m, p, n) := literal m text
  (assumeSize (n - 1)).bind fun size => .ok (m, .view p size)

/-! ### Comparisons -/

/-- The value of a `char`. -/
def charValue (signed : Bool) (b : Byte) : Int := if signed ∧ 128 ≤ b.val then (b.val : Int) - 256 else b.val

/-- `<=>` of `char`. -/
def charCmp (signed : Bool) (a b : Byte) : POrd := .ofOrdering (compare (charValue signed a) (charValue signed b))

/-- The characters of a string as a range. -/
def charRange (m : Memory) (p n : Nat) : Range Nat Byte := ⟨(memRange (fun a => m[a]?) p (p + n)).toRng, p, some n⟩

/-- Which function compares two strings: `lexicographical_compare` of this library or that of the standard library. -/
inductive CmpBy
  | library | standard
deriving DecidableEq

/-- Which operator overload resolution finds for a pair of strings.
`static_string` and `static_null_terminated_string` with the same type (`static_string.cpp` 46-51, 111-122), and with `std::string` (52-57, 123-134); `string_view` with everything that converts to it and is
not a `std::string_view` (`string_view.cpp` 104-109); `string` likewise (`string.cpp` 73-78), and with itself (`compare_container.cpp` 32-41); types of the standard library with each other and with
`static_string` and `static_null_terminated_string`, which convert to `std::string_view`. `none`: there is no operator, or several are as good as each other. Comparisons with a `subrange` are left out (`none`), because whether one of them is best depends on its iterator. -/
def cmpBy : Str → Str → Option CmpBy
  | .static n _, .static k _ => if n = k then some .library else none
  | .nullTerminated n _, .nullTerminated k _ => if n = k then some .library else none
  | .static _ _, .stdOwn _ _ | .stdOwn _ _, .static _ _ | .nullTerminated _ _, .stdOwn _ _ | .stdOwn _ _, .nullTerminated _ _ => some .library
  | .static _ _, .stdView _ _ | .stdView _ _, .static _ _ | .nullTerminated _ _, .stdView _ _ | .stdView _ _, .nullTerminated _ _ => some .standard
  | .view _ _, .view _ _ | .view _ _, .static _ _ | .static _ _, .view _ _ | .view _ _, .nullTerminated _ _ | .nullTerminated _ _, .view _ _ => some .library
  | .view _ _, .stdOwn _ _ | .stdOwn _ _, .view _ _ => some .library
  | .own _ _, .own _ _ | .own _ _, .view _ _ | .view _ _, .own _ _ | .own _ _, .static _ _ | .static _ _, .own _ _ => some .library
  | .own _ _, .nullTerminated _ _ | .nullTerminated _ _, .own _ _ | .own _ _, .stdOwn _ _ | .stdOwn _ _, .own _ _ => some .library
  | .stdView _ _, .stdView _ _ | .stdOwn _ _, .stdOwn _ _ | .stdView _ _, .stdOwn _ _ | .stdOwn _ _, .stdView _ _ => some .standard
  | _, _ => none

/-- What `std::char_traits<char>::compare` of the common length and then the comparison of the lengths give: characters compare as `unsigned char`. -/
def stdCompare : List Byte → List Byte → POrd
  | [], [] => .equal
  | [], _ :: _ => .less
  | _ :: _, [] => .greater
  | x :: xs, y :: ys => if x.val < y.val then .less else if y.val < x.val then .greater else stdCompare xs ys

/-- The characters of a string with a size. -/
def chars (m : Memory) (s : Str) : Res (List Byte) :=
  match s.size? with
  | none => .ub
  | some n => if s.data + n ≤ m.length then .ok ((m.drop s.data).take n) else .ub

/-- `lhs <=> rhs` -/
def order (signed : Bool) (m : Memory) (s t : Str) : Option (Res POrd) :=
  match cmpBy s t, s.size?, t.size? with
  | some .library, some n, some k => lexCompare (charRange m s.data n) (charRange m t.data k) (charCmp signed) (n + 1)
  | some .standard, _, _ => some ((chars m s).bind fun xs => (chars m t).bind fun ys => .ok (stdCompare xs ys))
  | _, _, _ => none

/-- `lhs == rhs` -/
def equals (m : Memory) (s t : Str) : Option (Res Bool) :=
  match cmpBy s t, s.size?, t.size? with
  | some .library, some n, some k => Views.equal (charRange m s.data n) (charRange m t.data k) (fun x y => decide (x = y)) (n + 1)
  | some .standard, _, _ => some ((chars m s).bind fun xs => (chars m t).bind fun ys => .ok (decide (xs = ys)))
  | _, _, _ => none

/-- `std::hash` of a string (`string_view.cpp` 154-159, `static_string.cpp` 207-219, `string.cpp` 125-130): that of the characters as a `std::string_view`. -/
def hash (h : List Byte → Nat) (m : Memory) (s : Str) : Option (Res Nat) :=
  match convert m s .stdView with
  | some (.ok (m', t)) => some ((chars m' t).bind fun xs => .ok (h xs))
  | some .exn => some .exn
  | some .ub => some .ub
  | none => none

/-! ## Specification -/

/-- The string is the sequence of characters `text`. A pointer is the sequence up to the null character. -/
def IsText (m : Memory) (s : Str) (text : List Byte) : Prop :=
  match s.size? with
  | some n => text.length = n ∧ n ≤ maxSize ∧ text <+: m.drop s.data ∧ s.data ≤ m.length
  | none => text.length ≤ maxSize ∧ text ++ [0] <+: m.drop s.data ∧ 0 ∉ text

/-- The dictionary order of texts by the values of the bytes. -/
def ByteOrder (xs ys : List Byte) (c : POrd) : Prop := LexIs (fun a b : Byte => POrd.ofOrdering (compare a.val b.val)) xs ys c

/-! ## Proofs -/

theorem IsText.mono {m m' : Memory} {s : Str} {text : List Byte} (h : IsText m s text) : IsText (m ++ m') s text := by
  unfold IsText at *
  revert h
  cases s.size? with
  | some n =>
    rintro ⟨h1, h2, h3, h4⟩
    refine ⟨h1, h2, ?_, by rw [List.length_append]; omega⟩
    rw [List.drop_append_of_le_length h4]
    exact h3.trans (List.prefix_append _ _)
  | none =>
    rintro ⟨h1, h2, h3⟩
    refine ⟨h1, ?_, h3⟩
    have hl : s.data ≤ m.length := by
      by_contra hc
      rw [List.drop_eq_nil_of_le (by omega)] at h2
      have := h2.length_le
      simp at this
    rw [List.drop_append_of_le_length hl]
    exact h2.trans (List.prefix_append _ _)

theorem IsText.chars {m : Memory} {s : Str} {text : List Byte} (h : IsText m s text) (n : Nat) (hn : s.size? = some n) :
    chars m s = .ok text ∧ copyOut m s.data n = .ok (m ++ text) := by
  unfold IsText at h
  rw [hn] at h
  obtain ⟨h1, h2, h3, h4⟩ := h
  have hl := h3.length_le
  rw [List.length_drop] at hl
  have ht : (m.drop s.data).take n = text := by
    rw [← h1]; exact (List.prefix_iff_eq_take.1 h3).symm
  constructor
  · simp only [Strings.chars, hn]
    rw [if_pos (by omega), ht]
  · rw [copyOut, if_pos (by omega), ht]

theorem findIdx_null (rest : List Byte) : ∀ (text : List Byte), 0 ∉ text → (text ++ 0 :: rest).findIdx (· == 0) = text.length
  | [], _ => by simp [List.findIdx_cons]
  | x :: xs, h => by
    have h1 : x ≠ 0 := fun hc => h (hc ▸ List.mem_cons_self)
    have h2 := findIdx_null rest xs fun hc => h (List.mem_cons_of_mem _ hc)
    have h3 : (x == 0) = false := beq_eq_false_iff_ne.2 h1
    rw [List.cons_append, List.findIdx_cons, h3, h2]; rfl

theorem IsText.strlen {m : Memory} {p : Nat} {text : List Byte} (h : IsText m (.pointer p) text) : strlen m p = .ok text.length := by
  obtain ⟨-, ⟨rest, h2⟩, h3⟩ := h
  simp only [Str.data] at h2
  rw [List.append_assoc] at h2
  have hlen := congrArg List.length h2
  simp only [List.length_append, List.length_drop, List.length_singleton] at hlen
  rw [Strings.strlen, ← h2]
  simp only [List.singleton_append]
  rw [findIdx_null rest text h3, if_pos (by omega)]

/-- A new object at the end of the memory has the text. -/
theorem isText_end {m : Memory} {text : List Byte} (h : text.length ≤ maxSize) : text <+: (m ++ text).drop m.length ∧ m.length ≤ (m ++ text).length := by
  rw [List.drop_left]
  exact ⟨List.prefix_rfl, by rw [List.length_append]; omega⟩

theorem convert_text {m : Memory} {s : Str} {text : List Byte} (h : IsText m s text) (t : Target) :
    convert m s t = none ∨ ∃ m' s', convert m s t = some (.ok (m', s')) ∧ IsText m' s' text ∧ m <+: m' := by
  cases hn : s.size? with
  | some n =>
    right
    obtain ⟨h1, h2⟩ := h.chars n hn
    have h' := h
    unfold IsText at h'
    rw [hn] at h'
    obtain ⟨h3, h4, h5, h6⟩ := h'
    have hsz : assumeSize n = .ok n := if_pos h4
    obtain ⟨h7, h8⟩ := isText_end (m := m) (text := text) (by omega)
    have key : ∀ (m' : Memory) (s' : Str), s'.size? = some n → text <+: m'.drop s'.data → s'.data ≤ m'.length → IsText m' s' text := fun m' s' e1 e2 e3 => by
      unfold IsText; rw [e1]; exact ⟨h3, h4, e2, e3⟩
    cases s <;> simp only [Str.size?, Option.some.injEq, reduceCtorEq] at hn <;> subst hn <;> simp only [Str.data] at h2 h5 h6 <;> cases t <;>
      simp only [convert, hsz, h2, Res.bind] <;> refine ⟨_, _, rfl, key _ _ rfl ?_ ?_, ?_⟩ <;>
      first | exact h5 | exact h6 | exact h7 | exact h8 | exact List.prefix_rfl | exact List.prefix_append _ _
  | none =>
    cases s <;> simp only [Str.size?, reduceCtorEq] at hn
    rename_i p
    have hl := h.strlen
    obtain ⟨h1, h2, h3⟩ := h
    simp only [Str.data] at h2
    have h4 : text <+: m.drop p := (List.prefix_append _ _).trans h2
    have h5 : p ≤ m.length := by
      by_contra hc
      rw [List.drop_eq_nil_of_le (by omega)] at h2
      have := h2.length_le
      simp at this
    have hsz : assumeSize text.length = .ok text.length := if_pos h1
    have hc : copyOut m p text.length = .ok (m ++ text) := by
      have := h4.length_le
      rw [List.length_drop] at this
      rw [copyOut, if_pos (by omega), ← List.prefix_iff_eq_take.1 h4]
    obtain ⟨h7, h8⟩ := isText_end (m := m) h1
    have key : ∀ (m' : Memory) (s' : Str), s'.size? = some text.length → text <+: m'.drop s'.data → s'.data ≤ m'.length → IsText m' s' text := fun m' s' e1 e2 e3 => by
      unfold IsText; rw [e1]; exact ⟨rfl, h1, e2, e3⟩
    cases t <;> simp only [convert, hl, hsz, hc, Res.bind] <;> first | exact .inl rfl | exact .inl trivial | (right; refine ⟨_, _, rfl, key _ _ rfl ?_ ?_, ?_⟩) <;>
      first | exact h4 | exact h5 | exact h7 | exact h8 | exact List.prefix_rfl | exact List.prefix_append _ _

/-- **C72**: every chain of conversions keeps the text, with null characters inside of it, and is never undefined. -/
theorem C72_conversions : ∀ (ts : List Target) {m : Memory} {s : Str} {text : List Byte}, IsText m s text →
    convertAll m s ts = none ∨ ∃ m' s', convertAll m s ts = some (.ok (m', s')) ∧ IsText m' s' text ∧ m <+: m'
  | [], m, s, _, h => .inr ⟨m, s, rfl, h, List.prefix_rfl⟩
  | t :: ts, m, s, text, h => by
    rw [convertAll]
    rcases convert_text h t with e | ⟨m', s', e, h1, h2⟩
    · rw [e]; exact .inl rfl
    · rw [e]
      rcases C72_conversions ts h1 with e2 | ⟨m2, s2, e2, h3, h4⟩
      · exact .inl e2
      · exact .inr ⟨m2, s2, e2, h3, h2.trans h4⟩

/-- **C72**: everything but a pointer converts to everything; pointers convert to everything but a string that owns its characters and a range. -/
theorem C72_convertible (m : Memory) (s : Str) (t : Target) : convert m s t = none ↔ (∃ p, s = .pointer p) ∧ (t = .own ∨ t = .sub) := by
  cases s <;> cases t <;> simp [convert]

/-- **C72**: the three kinds of literals have the text of the literal, with null characters inside of it but without the one at its end. -/
theorem C72_literals (m : Memory) (text : List Byte) (h : text.length ≤ maxSize) :
    IsText (literalS m text).1 (literalS m text).2 text ∧
    (∃ m' s, literalNullTerminated m text = .ok (m', s) ∧ IsText m' s text ∧ (s.data + text.length) < m'.length ∧ m'[s.data + text.length]? = some 0) ∧
    ∃ m' s, literalSv m text = .ok (m', s) ∧ IsText m' s text := by
  have hd : (m ++ text ++ [0]).drop m.length = text ++ [0] := by rw [List.append_assoc, List.drop_left]
  refine ⟨?_, ?_, ?_⟩
  · simp only [literalS, literal, Nat.add_sub_cancel, hd, List.take_left]
    exact ⟨rfl, h, by simp [Str.data], by simp only [Str.data, List.length_append]; omega⟩
  · have ht : (text ++ [0]).take (text.length + 1) = text ++ [0] := List.take_of_length_le (by simp)
    have h0 : (m ++ text ++ [0] ++ (text ++ [0]))[(m ++ text ++ [0]).length + text.length]? = some (0 : Byte) := by
      rw [List.getElem?_append_right (by omega), Nat.add_sub_cancel_left, List.getElem?_append_right (Nat.le_refl _), Nat.sub_self]; rfl
    simp only [literalNullTerminated, literal, hd, ht, Nat.add_sub_cancel, h0, if_true]
    refine ⟨_, _, rfl, ⟨rfl, h, ?_, ?_⟩, ?_, h0⟩
    · simp only [Str.data]
      rw [List.drop_left]
      exact List.prefix_append _ _
    · simp only [Str.data, List.length_append]; omega
    · simp only [Str.data, List.length_append, List.length_singleton]; omega
  · simp only [literalSv, literal, Nat.add_sub_cancel, assumeSize, if_pos h, Res.bind]
    refine ⟨_, _, rfl, rfl, h, ?_, ?_⟩
    · simp only [Str.data, hd]
      exact List.prefix_append _ _
    · simp only [Str.data, List.length_append]; omega

/-- **C72**: passing the address of a null terminated string gives the same text exactly if there is no null character in it; otherwise it is cut off at the first. -/
theorem C72_pointer {m : Memory} {p n : Nat} {text : List Byte} (h : IsText m (.nullTerminated n p) text) (h0 : m[p + n]? = some 0) :
    ∃ k, convert m (.pointer p) .view = some (.ok (m, .view p k)) ∧ k ≤ n ∧ IsText m (.view p k) (text.takeWhile (· != 0)) ∧ (k = n ↔ 0 ∉ text) := by
  obtain ⟨h1, h2, h3, h4⟩ := h
  simp only [Str.data] at h3 h4
  have hlen := h3.length_le
  obtain ⟨rest, hrest⟩ := h3
  have hr : ∃ rest', rest = 0 :: rest' := by
    have : (m.drop p)[n]? = some 0 := by rw [List.getElem?_drop]; exact h0
    rw [← hrest, List.getElem?_append_right (by omega), h1, Nat.sub_self] at this
    cases rest with
    | nil => simp at this
    | cons r rs => simp only [List.getElem?_cons_zero, Option.some.injEq] at this; exact ⟨rs, by rw [this]⟩
  obtain ⟨rest', rfl⟩ := hr
  -- the text up to its first null character
  have key : ∀ (xs : List Byte) (r : List Byte), ∃ r', xs ++ 0 :: r = xs.takeWhile (· != 0) ++ 0 :: r' := by
    intro xs r
    induction xs with
    | nil => exact ⟨r, rfl⟩
    | cons x xs ih =>
      obtain ⟨r', hr'⟩ := ih
      by_cases hx : x = 0
      · subst hx; exact ⟨xs ++ 0 :: r, by simp⟩
      · refine ⟨r', ?_⟩
        rw [List.takeWhile_cons, if_pos (by simpa using hx), List.cons_append, hr']; rfl
  obtain ⟨r', hr'⟩ := key text rest'
  have hno : (0 : Byte) ∉ text.takeWhile (· != 0) := fun hc => by
    have := List.all_takeWhile (p := (· != 0)) (l := text)
    rw [List.all_eq_true] at this
    have := this 0 hc
    simp at this
  have hle : (text.takeWhile (· != 0)).length ≤ text.length := (List.takeWhile_sublist _).length_le
  have hp : IsText m (.pointer p) (text.takeWhile (· != 0)) := by
    refine ⟨by omega, ⟨r', ?_⟩, hno⟩
    simp only [Str.data]
    rw [← hrest, hr', List.append_assoc]; rfl
  have hs := hp.strlen
  refine ⟨_, by simp only [convert, hs, Res.bind, assumeSize]; rw [if_pos (by omega)], by omega, ?_, ?_⟩
  · refine ⟨rfl, by omega, ⟨0 :: r', ?_⟩, h4⟩
    simp only [Str.data]
    rw [← hrest, hr']
  · rw [← h1]
    constructor
    · intro he hc
      have := (List.takeWhile_sublist (l := text) (· != 0)).eq_of_length he
      rw [← this] at hc
      exact hno hc
    · intro hc
      have := List.takeWhile_append_of_pos (p := (· != 0)) (l₁ := text) (l₂ := []) fun x hx => by
        have : x ≠ 0 := fun h => hc (h ▸ hx)
        simpa using this
      rw [List.append_nil, List.takeWhile_nil, List.append_nil] at this
      rw [this]

theorem charRange_is {m : Memory} {s : Str} {text : List Byte} {n : Nat} (h : IsText m s text) (hn : s.size? = some n) : (charRange m s.data n).Is text := by
  unfold IsText at h
  rw [hn] at h
  obtain ⟨h1, h2, ⟨rest, h3⟩, h4⟩ := h
  have hs : Mem.Seg (fun a => m[a]?) s.data text := by
    intro i hi
    have : (m.drop s.data)[i]? = some text[i] := by rw [← h3, List.getElem?_append_left hi, List.getElem?_eq_getElem hi]
    rwa [List.getElem?_drop] at this
  refine ⟨?_, fun k hk => ?_⟩
  · have := (memRange_indexed hs).toPositions.visits
    rw [h1] at this
    exact this
  · simp only [charRange, Option.some.injEq] at hk
    omega

theorem stdCompare_spec : ∀ (xs ys : List Byte), ByteOrder xs ys (stdCompare xs ys)
  | [], [] => lexIs_nil_nil.2 rfl
  | [], _ :: _ => lexIs_nil_cons.2 rfl
  | _ :: _, [] => lexIs_cons_nil.2 rfl
  | x :: xs, y :: ys => by
    have ih := stdCompare_spec xs ys
    have e : POrd.ofOrdering (compare x.val y.val) = if x.val < y.val then .less else if y.val < x.val then .greater else .equal := by
      rw [Nat.compare_eq_ite_lt]
      split_ifs <;> rfl
    rw [stdCompare]
    split
    · have : LexIs (fun a b : Byte => POrd.ofOrdering (compare a.val b.val)) (x :: xs) (y :: ys) (POrd.ofOrdering (compare x.val y.val)) :=
        LexIs.cons_ne xs ys (by rw [e, if_pos ‹_›]; simp)
      rw [e, if_pos ‹_›] at this
      exact this
    · split
      · have : LexIs (fun a b : Byte => POrd.ofOrdering (compare a.val b.val)) (x :: xs) (y :: ys) (POrd.ofOrdering (compare x.val y.val)) :=
          LexIs.cons_ne xs ys (by rw [e, if_neg ‹_›, if_pos ‹_›]; simp)
        rw [e, if_neg ‹_›, if_pos ‹_›] at this
        exact this
      · exact LexIs.cons_eq (by rw [e, if_neg ‹_›, if_neg ‹_›]) ih

theorem cmpBy_sized {s t : Str} {c : CmpBy} (h : cmpBy s t = some c) : ∃ n k, s.size? = some n ∧ t.size? = some k := by
  cases s <;> cases t <;> first | exact ⟨_, _, rfl, rfl⟩ | (simp [cmpBy] at h)

/-- **C72**: strings of any two types that can be compared are equal exactly if they have the same text. -/
theorem C72_equal {m : Memory} {s t : Str} {xs ys : List Byte} (hs : IsText m s xs) (ht : IsText m t ys) (hc : cmpBy s t ≠ none) :
    equals m s t = some (.ok (decide (xs = ys))) := by
  obtain ⟨c, hc⟩ := Option.ne_none_iff_exists'.1 hc
  obtain ⟨n, k, hn, hk⟩ := cmpBy_sized hc
  cases c with
  | library =>
    simp only [equals, hc, hn, hk]
    have hl : xs.length = n := by
      have := hs
      unfold IsText at this
      rw [hn] at this
      exact this.1
    exact C47_equal_eq (charRange_is hs hn) (charRange_is ht hk) (by omega)
  | standard =>
    simp only [equals, hc, (hs.chars n hn).1, (ht.chars k hk).1, Res.bind]

/-- **C72**: a `char` has one of 256 values, negative ones where it is signed, and characters with the same value are the same byte: comparing by value for
equality is comparing the bytes. -/
theorem C72_char_value (signed : Bool) (a b : Byte) : (charValue signed a % 256 = a.val ∧ -128 ≤ charValue signed a ∧ charValue signed a < 256 ∧
    (signed = true → charValue signed a < 128) ∧ (signed = false → 0 ≤ charValue signed a)) ∧ (charValue signed a = charValue signed b ↔ a = b) := by
  have ha := a.isLt
  have hb := b.isLt
  unfold charValue
  refine ⟨?_, ?_⟩
  · cases signed with
    | false => simp; omega
    | true => simp; split <;> omega
  · rw [Fin.ext_iff]
    cases signed <;> simp
    split <;> split <;> omega

/-- **C72**: the order of two strings is the dictionary order, by the values of `char` for the operators of this library and by the values of the bytes for those of the standard library. -/
theorem C72_order {signed : Bool} {m : Memory} {s t : Str} {xs ys : List Byte} (hs : IsText m s xs) (ht : IsText m t ys) {c : CmpBy} (hc : cmpBy s t = some c) :
    ∃ o, order signed m s t = some (.ok o) ∧ (c = .library → LexIs (charCmp signed) xs ys o) ∧ (c = .standard → ByteOrder xs ys o) := by
  obtain ⟨n, k, hn, hk⟩ := cmpBy_sized hc
  cases c with
  | library =>
    simp only [order, hc, hn, hk]
    have hl : xs.length = n := by
      have := hs
      unfold IsText at this
      rw [hn] at this
      exact this.1
    obtain ⟨o, e, l⟩ := C47_lexicographical_compare (charRange_is hs hn) (charRange_is ht hk) (charCmp signed) (f := n + 1) (by omega)
    exact ⟨o, e, fun _ => l, fun h => by cases h⟩
  | standard =>
    rw [show order signed m s t = some (.ok (stdCompare xs ys)) by simp only [order, hc, (hs.chars n hn).1, (ht.chars k hk).1, Res.bind]]
    exact ⟨_, rfl, fun h => absurd h (by decide), fun _ => stdCompare_spec xs ys⟩

/-- The values of the characters are those of the bytes. -/
theorem charCmp_eq {signed : Bool} {xs ys : List Byte} (h : signed = true → (∀ x ∈ xs, x.val < 128) ∧ ∀ y ∈ ys, y.val < 128) {o : POrd} (l : LexIs (charCmp signed) xs ys o) :
    ByteOrder xs ys o := by
  have key : ∀ x ∈ xs, ∀ y ∈ ys, charCmp signed x y = POrd.ofOrdering (compare x.val y.val) := fun x hx y hy => by
    have h1 : charValue signed x = x.val := by
      rw [charValue, if_neg]
      rintro ⟨h1, h2⟩
      have := (h h1).1 x hx
      omega
    have h2 : charValue signed y = y.val := by
      rw [charValue, if_neg]
      rintro ⟨h1, h2⟩
      have := (h h1).2 y hy
      omega
    rw [charCmp, h1, h2]
    congr 1
    simp only [compare, compareOfLessAndEq, Nat.cast_lt, Nat.cast_inj]
  cases l with
  | differ i hx hy before here =>
    have := LexIs.differ (cmp := fun a b : Byte => POrd.ofOrdering (compare a.val b.val)) i hx hy
      (fun k hk => by rw [← key _ (List.getElem_mem _) _ (List.getElem_mem _)]; exact before k hk) (by rw [← key _ (List.getElem_mem _) _ (List.getElem_mem _)]; exact here)
    rw [← key _ (List.getElem_mem _) _ (List.getElem_mem _)] at this
    exact this
  | shorter before => exact LexIs.shorter fun k hx hy => by rw [← key _ (List.getElem_mem _) _ (List.getElem_mem _)]; exact before k hx hy

/-- **C72** where `char` is unsigned, or for characters below 128: all strings, of whatever types, are ordered by the dictionary order of their bytes. Missing: other characters where `char` is signed
(`C72_order_violated`). -/
theorem C72_order_same_partial {signed : Bool} {m : Memory} {s t : Str} {xs ys : List Byte} (hs : IsText m s xs) (ht : IsText m t ys) (hc : cmpBy s t ≠ none)
    (hchar : signed = true → (∀ x ∈ xs, x.val < 128) ∧ ∀ y ∈ ys, y.val < 128) : ∃ o, order signed m s t = some (.ok o) ∧ ByteOrder xs ys o := by
  obtain ⟨c, hc⟩ := Option.ne_none_iff_exists'.1 hc
  obtain ⟨o, e, h1, h2⟩ := C72_order (signed := signed) hs ht hc
  refine ⟨o, e, ?_⟩
  cases c with
  | library => exact charCmp_eq hchar (h1 rfl)
  | standard => exact h2 rfl

/-- A string type that has an iterator pair or a pointer only. -/
def Str.bare : Str → Bool
  | .sub _ _ | .pointer _ => true
  | _ => false

/-- The order of the operands does not matter for which comparison is used, every proper string can be compared with a string of the same type, and `string`
and `string_view` with the string types of this library and with `std::string`. -/
theorem C72_comparable (s t : Str) : cmpBy s t = cmpBy t s ∧ (s.bare = false → cmpBy s s ≠ none) ∧
    ((∃ p n, s = .view p n ∨ s = .own p n) → t.bare = false → (∀ p n, t ≠ .stdView p n) → cmpBy s t = some .library) := by
  refine ⟨?_, ?_, ?_⟩
  · cases s <;> cases t <;> simp [cmpBy, eq_comm]
  · cases s <;> simp [Str.bare, cmpBy]
  · rintro ⟨p, n, rfl | rfl⟩ h h' <;> cases t <;> simp_all [Str.bare, cmpBy]

example : (Str.static 3 0).bare = false := rfl

/-- **C72**: the hash depends on the text only, so that equal strings of any types have the same hash. -/
theorem C72_hash (h : List Byte → Nat) {m : Memory} {s : Str} {text : List Byte} (hs : IsText m s text) : hash h m s = some (.ok (h text)) := by
  rw [hash]
  rcases convert_text hs .stdView with e | ⟨m', s', e, h1, -⟩
  · rw [C72_convertible] at e
    simp at e
  · rw [e]
    have hsz : ∃ n, s'.size? = some n := by
      cases s <;> simp only [convert, Option.some.injEq, Res.ok.injEq, Prod.mk.injEq] at e
      case pointer p =>
        revert e
        cases strlen m p <;> simp only [Res.bind, Res.ok.injEq, Prod.mk.injEq, reduceCtorEq, false_implies]
        rintro ⟨-, rfl⟩; exact ⟨_, rfl⟩
      all_goals (obtain ⟨-, rfl⟩ := e; exact ⟨_, rfl⟩)
    obtain ⟨n, hn⟩ := hsz
    simp only [(h1.chars n hn).1, Res.bind]

/-! ### The order depends on the types where `char` is signed -/

/-- The memory with the texts `\\x80` and `a`. -/
def exMemory : Memory := [128, 97]

/-- **C72** fails for the order where `char` is signed: two strings that are equal, one of this library and one of the standard library, are on different sides of a third one. So a sequence that is
sorted according to one type is not sorted according to the other. -/
theorem C72_order_violated :
    equals exMemory (.static 1 0) (.stdOwn 0 1) = some (.ok true) ∧
    order true exMemory (.static 1 0) (.stdOwn 1 1) = some (.ok .less) ∧
    order true exMemory (.stdOwn 0 1) (.stdOwn 1 1) = some (.ok .greater) ∧
    order true exMemory (.static 1 0) (.stdView 1 1) = some (.ok .greater) := by decide +kernel

/-- The strings in `C72_order_violated` have those texts. -/
example : IsText exMemory (.static 1 0) [128] ∧ IsText exMemory (.stdOwn 0 1) [128] ∧ IsText exMemory (.stdOwn 1 1) [97] ∧ IsText exMemory (.stdView 1 1) [97] := by
  refine ⟨⟨rfl, by decide, ?_, by decide⟩, ⟨rfl, by decide, ?_, by decide⟩, ⟨rfl, by decide, ?_, by decide⟩, ⟨rfl, by decide, ?_, by decide⟩⟩ <;> exact ⟨_, rfl⟩

/-- The hypotheses of `C72_conversions` and `C72_pointer` can be met: a null terminated string with a null character inside. -/
example : IsText [5, 97, 0, 98, 0] (.nullTerminated 3 1) [97, 0, 98] ∧ ([5, 97, 0, 98, 0] : Memory)[1 + 3]? = some 0 ∧
    convert [5, 97, 0, 98, 0] (.pointer 1) .view = some (.ok ([5, 97, 0, 98, 0], .view 1 1)) ∧
    convertAll [5, 97, 0, 98, 0] (.nullTerminated 3 1) [.view, .own, .stdView] = some (.ok ([5, 97, 0, 98, 0, 97, 0, 98], .stdView 5 3)) := by
  refine ⟨⟨rfl, by decide, ⟨[0], rfl⟩, by decide⟩, by decide, by decide +kernel, by decide +kernel⟩

end Verif.Strings
