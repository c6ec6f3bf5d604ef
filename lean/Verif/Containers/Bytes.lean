import Verif.Bounded.ArithProps
import Verif.Bounded.IntegerProps
import Mathlib.Tactic.Ring

/-!
# Spans and views of bytes (C82)

`span.cpp`, `as_bytes.cpp`, `pointer.cpp` and the parts of `data.cpp`, `to_address.cpp` and `contiguous_iterator.cpp` they use, over a memory of bytes. An array is a
number of objects of the same size, one after the other. Pointers are addresses; arithmetic that leaves the array and reading or writing anything
outside of it is undefined (`none`). Alignment is not modelled.
-/

namespace Verif.Bytes

open Verif.Bounded

/-- The bytes of the memory. -/
abbrev Store := Nat → UInt8

/-- An array: `count` objects of `width` bytes from the address `base` on. -/
structure Arr where
  base : Nat
  count : Nat
  width : Nat

namespace Arr

/-- The address after the array. -/
def stop (a : Arr) : Nat := a.base + a.count * a.width

/-- Specification: the bytes of the element with the index `i`. -/
def bytes (a : Arr) (m : Store) (i : Nat) : List UInt8 := (List.range a.width).map fun j => m (a.base + i * a.width + j)

end Arr

/-! ## Model -/

/-- `ptr + number` (`source/bounded/arithmetic/pointer.cpp` 11-19), which is the built-in addition, for pointers into the array `a`, to objects of `w` bytes. -/
def Arr.add (a : Arr) (w p : Nat) (k : Int) : Option Nat :=
  if (a.base : Int) ≤ p + k * w ∧ (p : Int) + k * w ≤ a.stop then some ((p : Int) + k * w).toNat else none

/-- `*ptr`, read. The built-in operation that `span.cpp` 66 and `contiguous_iterator.cpp` 43-45 use. -/
def Arr.load (a : Arr) (w : Nat) (m : Store) (p : Nat) : Option (List UInt8) :=
  if a.base ≤ p ∧ p + w ≤ a.stop then some ((List.range w).map fun j => m (p + j)) else none

/-- `*ptr = value`, the built-in operation that `span.cpp` 66 and `contiguous_iterator.cpp` 43-45 give access to. -/
def Arr.store (a : Arr) (w : Nat) (m : Store) (p : Nat) (v : List UInt8) : Option Store :=
  if a.base ≤ p ∧ p + w ≤ a.stop ∧ v.length = w then some fun q => if h : p ≤ q ∧ q - p < v.length then v[q - p] else m q else none

/-- `maximum_array_bytes` (`maximum_array_size.cpp` 15-18). -/
def maximumArrayBytes : Nat := min (2 ^ 63 - 1) (2 ^ 52 - 1)

/-- `maximum_array_size` (`maximum_array_size.cpp` 20-21). -/
def maximumArraySize (w : Nat) : Nat := maximumArrayBytes / w

/-- A `span` of objects of `width` bytes (`span.cpp` 31, 76-79). -/
structure Span where
  data : Nat
  size : Nat
  width : Nat
  deriving DecidableEq, Repr

/-- `span(range)` (`span.cpp` 34-40) of a range with the given `data` and `size`, and `span(first, size)` (42-48). The type of the size has no greater values. -/
def Span.ofSize (width data size : Nat) : Option Span := if size ≤ maximumArraySize width then some ⟨data, size, width⟩ else none

/-- `span(first, last)` (`span.cpp` 50-56), with the difference of two pointers or of two `contiguous_iterator`s (`contiguous_iterator.cpp` 67-69). -/
def Span.ofIterators (width first last : Nat) : Option Span :=
  let difference := ((last : Int) - first) / width
  if 0 ≤ difference then Span.ofSize width first difference.toNat else none

/-- `&s[index]` (`span.cpp` 65-67) for pointers into the array `a`. The type of the index has no values above `maximum_array_size`. -/
def Span.index (a : Arr) (s : Span) (k : Nat) : Option Nat := if k ≤ maximumArraySize s.width then a.add s.width s.data k else none

/-- `*(begin(s) + k)` (`begin_end.cpp` 33-45, `contiguous_iterator.cpp` 43-45, 53-55): the addition takes offsets from minus to plus `maximum_array_size`. -/
def Span.iterator (a : Arr) (s : Span) (k : Int) : Option Nat :=
  if -(maximumArraySize s.width : Int) ≤ k ∧ k ≤ maximumArraySize s.width then a.add s.width s.data k else none

/-- `as_bytes` and `as_writeable_bytes` (`as_bytes.cpp` 20-36) of a range with the given `data` and `size`. That the product can be computed and converted to
the type of the size is `C82_bytes_size`. -/
def asBytes (width data size : Nat) : Option Span := Span.ofSize 1 data (size * width)

/-- The size of `as_bytes` with the types of its computation (`as_bytes.cpp` 24, `span.cpp` 44, `maximum_array_size.cpp` 20-24): the size of the range, an
`array_size_type<T>`, times `size_of<T>`, converted to `array_size_type<std::byte>`. `none` if it does not compile. -/
def bytesSize (W : Nat) (width : Nat) (size : BInt) : Option (Res BInt) :=
  match mul W size ((⟨width, width⟩ : Rng).unchecked W width) with
  | none => none
  | some .ub => some .ub
  | some .exn => some .exn
  | some (.ok c) => convert W ⟨0, maximumArraySize 1⟩ c

/-- What user code does to copy the bytes of one span to another of the same size (`as_bytes.cpp` 28-36): `for (i) to[i] = from[i]`, from the index `k` on. -/
def copyBytes (a b : Arr) (src dst : Span) : Nat → Nat → Store → Option Store
  | 0, _, m => some m
  | n + 1, k, m => do
    let p ← src.index a k
    let v ← a.load 1 m p
    let q ← dst.index b k
    let m ← b.store 1 m q v
    copyBytes a b src dst n (k + 1) m

/-! ## Elements of spans -/

section

variable {a : Arr} {m : Store}

theorem add_at (w : Nat) {p k : Nat} (h1 : a.base ≤ p) (h2 : p + k * w ≤ a.stop) : a.add w p k = some (p + k * w) := by
  have e : (p : Int) + (k : Int) * w = ((p + k * w : Nat) : Int) := by push_cast; rfl
  rw [Arr.add, e, if_pos ⟨by omega, by omega⟩, Int.toNat_natCast]

theorem at_le {i : Nat} (hi : i < a.count) : a.base + i * a.width + a.width ≤ a.stop := by
  have := Nat.mul_le_mul_right a.width (show i + 1 ≤ a.count by omega)
  rw [Nat.add_mul] at this
  unfold Arr.stop
  omega

theorem load_at {i : Nat} (hi : i < a.count) : a.load a.width m (a.base + i * a.width) = some (a.bytes m i) := by
  rw [Arr.load, if_pos ⟨by omega, at_le hi⟩]
  rfl

theorem ofIterators_eq {i j : Nat} (hw : 0 < a.width) (hij : i ≤ j) (hj : j ≤ a.count) (hc : a.count ≤ maximumArraySize a.width) :
    Span.ofIterators a.width (a.base + i * a.width) (a.base + j * a.width) = some ⟨a.base + i * a.width, j - i, a.width⟩ := by
  have e : (((a.base + j * a.width : Nat) : Int) - (a.base + i * a.width : Nat)) / (a.width : Int) = ((j - i : Nat) : Int) := by
    rw [show (((a.base + j * a.width : Nat) : Int) - (a.base + i * a.width : Nat)) = ((j - i : Nat) : Int) * a.width by
      rw [Nat.cast_sub hij]; push_cast; ring]
    exact Int.mul_ediv_cancel _ (by omega)
  simp only [Span.ofIterators, e, Int.natCast_nonneg, if_true, Int.toNat_natCast]
  rw [Span.ofSize, if_pos (by omega)]

/-- **C82**: the span of the elements from `i` to `j` has `j - i` elements, and its element `k` is the element `i + k` of the array. -/
theorem C82_span {i j : Nat} (hw : 0 < a.width) (hij : i ≤ j) (hj : j ≤ a.count) (hc : a.count ≤ maximumArraySize a.width) (m : Store) :
    ∃ s, Span.ofIterators a.width (a.base + i * a.width) (a.base + j * a.width) = some s ∧ s.size = j - i ∧
      ∀ k < s.size, (s.index a k).bind (a.load s.width m) = some (a.bytes m (i + k)) ∧ s.iterator a k = s.index a k := by
  refine ⟨_, ofIterators_eq hw hij hj hc, rfl, fun k hk => ?_⟩
  simp only at hk
  have hlt : i + k < a.count := by omega
  have := at_le hlt
  have e : a.base + i * a.width + k * a.width = a.base + (i + k) * a.width := by ring
  have hk' : k ≤ maximumArraySize a.width := by omega
  refine ⟨?_, ?_⟩
  · simp only [Span.index, if_pos hk']
    rw [add_at a.width (by omega) (by omega), Option.bind_some, e]
    exact load_at hlt
  · simp only [Span.index, Span.iterator, if_pos hk']
    rw [if_pos ⟨by omega, by omega⟩]

/-- `span(last, first)` with the iterators the wrong way round is undefined. -/
theorem C82_span_backwards {i j : Nat} (hw : 0 < a.width) (hij : i < j) : Span.ofIterators a.width (a.base + j * a.width) (a.base + i * a.width) = none := by
  have e : (((a.base + i * a.width : Nat) : Int) - (a.base + j * a.width : Nat)) / (a.width : Int) = -((j - i : Nat) : Int) := by
    rw [show (((a.base + i * a.width : Nat) : Int) - (a.base + j * a.width : Nat)) = -((j - i : Nat) : Int) * a.width by
      rw [Nat.cast_sub (by omega)]; push_cast; ring]
    exact Int.mul_ediv_cancel _ (by omega)
  simp only [Span.ofIterators, e]
  rw [if_neg (by omega)]

theorem store_get {w p : Nat} {v : List UInt8} (h1 : a.base ≤ p) (h2 : p + w ≤ a.stop) (hv : v.length = w) :
    ∃ m', a.store w m p v = some m' ∧ (∀ (j : Nat) (h : j < v.length), m' (p + j) = v[j]) ∧ ∀ q, ¬ (p ≤ q ∧ q < p + w) → m' q = m q := by
  refine ⟨_, by rw [Arr.store, if_pos ⟨h1, h2, hv⟩], fun j hj => ?_, fun q hq => ?_⟩
  · rw [dif_pos ⟨by omega, by omega⟩]
    congr 1
    omega
  · rw [dif_neg (by omega)]

/-- **C82**: assigning to the element `k` of the span of the elements from `i` to `j` changes the element `i + k` of the array, and nothing else in the memory. -/
theorem C82_span_write {i j : Nat} (hw : 0 < a.width) (hij : i ≤ j) (hj : j ≤ a.count) (hc : a.count ≤ maximumArraySize a.width) (m : Store) {k : Nat}
    (hk : k < j - i) {v : List UInt8} (hv : v.length = a.width) :
    ∃ s p m', Span.ofIterators a.width (a.base + i * a.width) (a.base + j * a.width) = some s ∧ s.index a k = some p ∧ a.store a.width m p v = some m' ∧
      a.bytes m' (i + k) = v ∧ (∀ l, l ≠ i + k → a.bytes m' l = a.bytes m l) ∧ ∀ q, (q < a.base ∨ a.stop ≤ q) → m' q = m q := by
  have hlt : i + k < a.count := by omega
  have hle := at_le hlt
  have e : a.base + i * a.width + k * a.width = a.base + (i + k) * a.width := by ring
  have hk' : k ≤ maximumArraySize a.width := by omega
  obtain ⟨m', h1, h2, h3⟩ := store_get (a := a) (m := m) (w := a.width) (p := a.base + (i + k) * a.width) (v := v) (by omega) hle hv
  refine ⟨_, a.base + (i + k) * a.width, m', ofIterators_eq hw hij hj hc, ?_, h1, ?_, ?_, ?_⟩
  · simp only [Span.index, if_pos hk']
    rw [add_at a.width (by omega) (by omega), e]
  · refine List.ext_getElem (by simp [Arr.bytes, hv]) fun n hn hn' => ?_
    simp only [Arr.bytes, List.getElem_map, List.getElem_range]
    exact h2 n hn'
  · intro l hl
    refine List.map_congr_left fun n hn => h3 _ ?_
    rw [List.mem_range] at hn
    rcases Nat.lt_or_gt_of_ne hl with h | h
    · have := Nat.mul_le_mul_right a.width (show l + 1 ≤ i + k by omega)
      rw [Nat.add_mul] at this
      omega
    · have := Nat.mul_le_mul_right a.width (show i + k + 1 ≤ l by omega)
      rw [Nat.add_mul] at this
      omega
  · intro q hq
    exact h3 q (by omega)

/-- **C82** is violated by indexes that are not less than the size: every index up to the size of the greatest array is accepted without a check. It then reads an element that is
not in the span, or is undefined if the array has no such element. -/
theorem C82_span_index_violated {i j : Nat} (hw : 0 < a.width) (hij : i ≤ j) (hj : j ≤ a.count) (hc : a.count ≤ maximumArraySize a.width) (m : Store) :
    ∃ s, Span.ofIterators a.width (a.base + i * a.width) (a.base + j * a.width) = some s ∧ s.size = j - i ∧
      ∀ k, s.size ≤ k → k ≤ maximumArraySize a.width →
        (s.index a k).bind (a.load s.width m) = if i + k < a.count then some (a.bytes m (i + k)) else none := by
  refine ⟨_, ofIterators_eq hw hij hj hc, rfl, fun k hk hk' => ?_⟩
  have e : a.base + i * a.width + k * a.width = a.base + (i + k) * a.width := by ring
  simp only [Span.index, if_pos hk']
  split
  · next hlt =>
    have hle := at_le hlt
    rw [add_at a.width (by omega) (by omega), Option.bind_some, e]
    exact load_at hlt
  · next hge =>
    rw [Arr.add]
    split
    · simp only [Option.bind_some]
      rw [Arr.load, if_neg]
      intro h
      have e' : ((a.base + i * a.width : Nat) : Int) + (k : Int) * a.width = ((a.base + (i + k) * a.width : Nat) : Int) := by push_cast; ring
      rw [e', Int.toNat_natCast] at h
      have := Nat.mul_le_mul_right a.width (show a.count ≤ i + k by omega)
      unfold Arr.stop at h
      omega
    · rfl

/-! ## Bytes -/

theorem bytes_div {n k w : Nat} (h : k < n * w) : k / w < n ∧ k % w < w ∧ k / w * w + k % w = k := by
  have hw : 0 < w := by
    rcases Nat.eq_zero_or_pos w with h0 | h0
    · subst h0; simp at h
    · exact h0
  refine ⟨(Nat.div_lt_iff_lt_mul hw).2 h, Nat.mod_lt _ hw, ?_⟩
  rw [Nat.mul_comm]; exact Nat.div_add_mod k w

theorem asBytes_eq {i n : Nat} (hn : i + n ≤ a.count) (hc : a.count ≤ maximumArraySize a.width) :
    asBytes a.width (a.base + i * a.width) n = some ⟨a.base + i * a.width, n * a.width, 1⟩ := by
  have : n * a.width ≤ maximumArraySize 1 := by
    have h1 := Nat.mul_le_mul_right a.width (show n ≤ maximumArraySize a.width by omega)
    have h2 := Nat.div_mul_le_self maximumArrayBytes a.width
    rw [maximumArraySize, Nat.div_one]
    exact Nat.le_trans h1 h2
  rw [asBytes, Span.ofSize, if_pos this]

theorem byte_index {i n : Nat} (hn : i + n ≤ a.count) (hc : a.count ≤ maximumArraySize a.width) {k : Nat} (hk : k < n * a.width) :
    (⟨a.base + i * a.width, n * a.width, 1⟩ : Span).index a k = some (a.base + (i + k / a.width) * a.width + k % a.width) ∧
      a.base + (i + k / a.width) * a.width + k % a.width + 1 ≤ a.stop := by
  obtain ⟨d1, d2, d3⟩ := bytes_div hk
  have hle := at_le (a := a) (i := i + k / a.width) (by omega)
  have hmax := asBytes_eq (a := a) hn hc
  rw [asBytes, Span.ofSize] at hmax
  have hs : n * a.width ≤ maximumArraySize 1 := by
    by_contra h; rw [if_neg h] at hmax; cases hmax
  have e : a.base + i * a.width + k = a.base + (i + k / a.width) * a.width + k % a.width := by
    rw [Nat.add_mul]; omega
  refine ⟨?_, by omega⟩
  simp only [Span.index]
  rw [if_pos (by omega), add_at 1 (by omega) (by omega), Nat.mul_one, e]

/-- **C82**: `as_bytes` of a range of `n` elements has `n * sizeof` bytes, and its byte `k` is the byte `k % sizeof` of the element `k / sizeof`. -/
theorem C82_bytes {i n : Nat} (hn : i + n ≤ a.count) (hc : a.count ≤ maximumArraySize a.width) (m : Store) :
    ∃ s, asBytes a.width (a.base + i * a.width) n = some s ∧ s.size = n * a.width ∧ s.width = 1 ∧
      ∀ k < s.size, (s.index a k).bind (a.load 1 m) = ((a.bytes m (i + k / a.width))[k % a.width]?).map fun x => [x] := by
  refine ⟨_, asBytes_eq hn hc, rfl, rfl, fun k hk => ?_⟩
  obtain ⟨e, hle⟩ := byte_index hn hc hk
  obtain ⟨d1, d2, d3⟩ := bytes_div hk
  rw [e, Option.bind_some, Arr.load, if_pos ⟨by omega, hle⟩]
  simp [Arr.bytes, d2]

/-- **C82**: assigning to the byte `k` changes the byte `k % sizeof` of the element `k / sizeof`, and nothing else. -/
theorem C82_write_byte {i n : Nat} (hn : i + n ≤ a.count) (hc : a.count ≤ maximumArraySize a.width) (m : Store) {k : Nat} (hk : k < n * a.width) (v : UInt8) :
    ∃ s p m', asBytes a.width (a.base + i * a.width) n = some s ∧ s.index a k = some p ∧ a.store 1 m p [v] = some m' ∧
      a.bytes m' (i + k / a.width) = (a.bytes m (i + k / a.width)).set (k % a.width) v ∧ (∀ l, l ≠ i + k / a.width → a.bytes m' l = a.bytes m l) ∧
      ∀ q, (q < a.base ∨ a.stop ≤ q) → m' q = m q := by
  obtain ⟨e, hle⟩ := byte_index hn hc hk
  obtain ⟨d1, d2, d3⟩ := bytes_div hk
  obtain ⟨m', h1, h2, h3⟩ := store_get (a := a) (m := m) (w := 1) (p := a.base + (i + k / a.width) * a.width + k % a.width) (v := [v]) (by omega) hle rfl
  have hv : m' (a.base + (i + k / a.width) * a.width + k % a.width) = v := by
    have := h2 0 (by simp)
    simpa using this
  refine ⟨_, _, m', asBytes_eq hn hc, e, h1, ?_, ?_, fun q hq => h3 q (by omega)⟩
  · refine List.ext_getElem (by simp [Arr.bytes]) fun j hj hj' => ?_
    rw [List.getElem_set]
    simp only [Arr.bytes, List.getElem_map, List.getElem_range]
    split
    · next h => rw [← h, hv]
    · next h => exact h3 _ (by omega)
  · intro l hl
    refine List.map_congr_left fun j hj => h3 _ ?_
    rw [List.mem_range] at hj
    rcases Nat.lt_or_gt_of_ne hl with h | h
    · have := Nat.mul_le_mul_right a.width (show l + 1 ≤ i + k / a.width by omega)
      rw [Nat.add_mul] at this
      omega
    · have := Nat.mul_le_mul_right a.width (show i + k / a.width + 1 ≤ l by omega)
      rw [Nat.add_mul] at this
      omega

end

/-- The bytes of two arrays that do not overlap. -/
def Apart (a b : Arr) : Prop := a.stop ≤ b.base ∨ b.stop ≤ a.base

instance (a b : Arr) : Decidable (Apart a b) := inferInstanceAs (Decidable (_ ∨ _))

theorem copyBytes_spec {a b : Arr} (hab : Apart a b) {n : Nat} (ha : a.count * a.width = n) (hb : b.count * b.width = n) (hn : n ≤ maximumArraySize 1) :
    ∀ (r k : Nat) (m : Store), k + r = n → (∀ j < k, m (b.base + j) = m (a.base + j)) →
      ∃ m', copyBytes a b ⟨a.base, n, 1⟩ ⟨b.base, n, 1⟩ r k m = some m' ∧ (∀ j < n, m' (b.base + j) = m (a.base + j)) ∧
        ∀ q, (q < b.base ∨ b.stop ≤ q) → m' q = m q
  | 0, k, m, hk, h => ⟨m, rfl, fun j hj => h j (by omega), fun _ _ => rfl⟩
  | r + 1, k, m, hk, h => by
    have hsa : a.stop = a.base + n := by rw [Arr.stop, ha]
    have hsb : b.stop = b.base + n := by rw [Arr.stop, hb]
    have i1 : (⟨a.base, n, 1⟩ : Span).index a k = some (a.base + k) := by
      simp only [Span.index]
      rw [if_pos (by omega), add_at 1 (by omega) (by omega), Nat.mul_one]
    have i2 : (⟨b.base, n, 1⟩ : Span).index b k = some (b.base + k) := by
      simp only [Span.index]
      rw [if_pos (by omega), add_at 1 (by omega) (by omega), Nat.mul_one]
    have l1 : a.load 1 m (a.base + k) = some [m (a.base + k)] := by
      rw [Arr.load, if_pos ⟨by omega, by omega⟩]; simp
    obtain ⟨m1, s1, s2, s3⟩ := store_get (a := b) (m := m) (w := 1) (p := b.base + k) (v := [m (a.base + k)]) (by omega) (by omega) rfl
    have s2' : m1 (b.base + k) = m (a.base + k) := by have := s2 0 (by simp); simpa using this
    have hA : ∀ j < n, m1 (a.base + j) = m (a.base + j) := fun j hj => s3 _ (by rcases hab with h | h <;> omega)
    obtain ⟨m', c1, c2, c3⟩ := copyBytes_spec hab ha hb hn r (k + 1) m1 (by omega) fun j hj => by
      rw [hA j (by omega)]
      by_cases hjk : j = k
      · rw [hjk, s2']
      · rw [s3 _ (by omega)]; exact h j (by omega)
    refine ⟨m', ?_, fun j hj => by rw [c2 j hj, hA j hj], fun q hq => by rw [c3 q hq, s3 q (by omega)]⟩
    rw [copyBytes, i1, Option.bind_eq_bind, Option.bind_some, l1]
    simp only [Option.bind_eq_bind, Option.bind_some, i2, s1, c1]

/-- **C82**: after copying all bytes of one array to another one with `as_bytes` and `as_writeable_bytes`, its elements have the same bytes, and nothing outside of it has
changed. -/
theorem C82_copy {a b : Arr} (hab : Apart a b) (hw : a.width = b.width) (hn : a.count = b.count) (hc : a.count ≤ maximumArraySize a.width) (m : Store) :
    ∃ s t m', asBytes a.width a.base a.count = some s ∧ asBytes b.width b.base b.count = some t ∧ s.size = t.size ∧
      copyBytes a b s t s.size 0 m = some m' ∧ (∀ i < b.count, b.bytes m' i = a.bytes m i) ∧ ∀ q, (q < b.base ∨ b.stop ≤ q) → m' q = m q := by
  have e1 := asBytes_eq (a := a) (i := 0) (n := a.count) (by omega) hc
  have e2 := asBytes_eq (a := b) (i := 0) (n := b.count) (by omega) (by rw [← hn, ← hw]; exact hc)
  rw [Nat.zero_mul, Nat.add_zero] at e1 e2
  have hmax : a.count * a.width ≤ maximumArraySize 1 := by
    by_contra h
    rw [asBytes, Span.ofSize, if_neg h] at e1; cases e1
  obtain ⟨m', h1, h2, h3⟩ := copyBytes_spec hab (n := a.count * a.width) rfl (by rw [← hn, ← hw]) hmax (a.count * a.width) 0 m (by omega) (by omega)
  refine ⟨_, _, m', e1, e2, by simp only; rw [hn, hw], ?_, ?_, h3⟩
  · simp only
    rw [← h1, hn, hw]
  · intro i hi
    rw [Arr.bytes, Arr.bytes, hw]
    refine List.map_congr_left fun j hj => ?_
    rw [List.mem_range] at hj
    have := Nat.mul_le_mul_right b.width (show i + 1 ≤ b.count by omega)
    rw [Nat.add_mul] at this
    rw [Nat.add_assoc, Nat.add_assoc]
    exact h2 _ (by rw [hn, hw]; omega)

/-- **C82**: the size of `as_bytes` always compiles and is exact, for every size that the range can have and every size of its elements. -/
theorem C82_bytes_size {W : Nat} (hW : 64 ≤ W) {width : Nat} (hw : 0 < width) (hw' : width ≤ maximumArrayBytes) {size : BInt} (hr : size.rng = ⟨0, maximumArraySize width⟩)
    {n : Nat} (hn : n ≤ maximumArraySize width) (hv : size.value = .ok n) :
    ∃ c, bytesSize W width size = some (.ok c) ∧ c.rng = ⟨0, maximumArraySize 1⟩ ∧ c.value = .ok ((n * width : Nat) : Int) := by
  have ⟨p1, p2⟩ := pow_facts hW
  have hp : (2 : Int) ^ 63 ≤ 2 ^ (W - 1) := by
    exact_mod_cast Nat.pow_le_pow_right (by decide) (show 63 ≤ W - 1 by omega)
  have hmax : maximumArrayBytes = 2 ^ 52 - 1 := by decide
  have h1 : maximumArraySize 1 = maximumArrayBytes := by rw [maximumArraySize, Nat.div_one]
  have hmul : maximumArraySize width * width ≤ maximumArrayBytes := Nat.div_mul_le_self _ _
  have hle : maximumArraySize width ≤ maximumArrayBytes := Nat.div_le_self _ _
  have wf : ∀ lo hi : Nat, lo ≤ hi → hi ≤ maximumArrayBytes → (⟨lo, hi⟩ : Rng).Wf W := fun lo hi h1 h2 => by
    rw [wf_iff hW]
    refine ⟨by simp only; omega, ?_⟩
    unfold Storable
    simp only
    omega
  have wfA : size.rng.Wf W := by rw [hr]; exact wf 0 _ (by omega) hle
  have wfB : (⟨width, width⟩ : Rng).Wf W := wf _ _ (Nat.le_refl _) hw'
  have hB := holds_of_mem hW wfB (x := width) ⟨by simp, by simp⟩
  have e : mulRange size.rng ⟨width, width⟩ = ⟨0, (maximumArraySize width * width : Nat)⟩ := by
    rw [hr, mulRange]
    have : (0 : Int) ≤ (maximumArraySize width : Int) * width := by positivity
    simp only [Int.zero_mul, Rng.mk.injEq]
    push_cast
    omega
  have wfR : (mulRange size.rng ⟨width, width⟩).Wf W := by rw [e]; exact wf 0 _ (by omega) hmul
  have hty : mulTy W size.rng ⟨width, width⟩ = some (mulRange size.rng ⟨width, width⟩) := by
    rw [mulTy_eq hW wfA wfB (by rw [e]; simp only; omega)]
    exact wfR
  obtain ⟨c, h1', h2', h3', _, _⟩ := mul_value hW (b := (⟨width, width⟩ : Rng).unchecked W width) wfA wfB
    (by show _ ≤ (mulRange size.rng ⟨width, width⟩).lo; rw [e]; simp only; omega) hty hv hB.1.2
  have hsub : (0 : Int) ≤ c.rng.lo ∧ c.rng.hi ≤ (maximumArraySize 1 : Nat) := by
    rw [h2', e, h1]
    exact ⟨le_rfl, by simp only; exact_mod_cast hmul⟩
  obtain ⟨d, d1, d2, d3⟩ := (C10_convert_exact hW (r := ⟨0, maximumArraySize 1⟩) (wf 0 _ (by omega) (by omega)) (by rw [h2']; exact wfR) h3').1 hsub
  refine ⟨d, by rw [bytesSize, h1']; exact d1, d2, by rw [d3]; push_cast; rfl⟩

/-! ## Examples -/

/-- Three elements of four bytes from the address 100 on. -/
def three : Arr := ⟨100, 3, 4⟩

/-- A memory in which every byte is the last byte of its address. -/
def counting : Store := fun p => UInt8.ofNat p

example : 0 < three.width ∧ three.count ≤ maximumArraySize three.width := by decide
example : Apart three ⟨200, 3, 4⟩ := by decide
example : Span.ofIterators 4 104 112 = some ⟨104, 2, 4⟩ ∧ three.bytes counting 2 = [108, 109, 110, 111] := by decide +kernel
example : ((⟨104, 2, 4⟩ : Span).index three 1).bind (three.load 4 counting) = some [108, 109, 110, 111] := by decide +kernel
/-- The index 2 of a span of two elements reads past the end of the array. -/
example : ((⟨104, 2, 4⟩ : Span).index three 2).bind (three.load 4 counting) = none := by decide +kernel
example : asBytes 4 104 2 = some ⟨104, 8, 1⟩ ∧ ((⟨104, 8, 1⟩ : Span).index three 5).bind (three.load 1 counting) = some [109] := by decide +kernel
example : ∃ size : BInt, size.rng = ⟨0, maximumArraySize 4⟩ ∧ size.value = .ok 3 ∧ maximumArraySize 4 = 2 ^ 50 - 1 :=
  ⟨⟨⟨0, maximumArraySize 4⟩, 3⟩, rfl, by decide +kernel, by decide +kernel⟩

end Verif.Bytes
