import Verif.Bounded.ToString
import Verif.Base.Hist

/-!
# Stream insertion and extraction of bounded integers (property C65)

The standard streams are not part of the repository. What is assumed about them
([istream], [ostream], [facet.num.get.virtuals], [facet.num.put.virtuals]) is written
down here as functions: default flags (decimal, `skipws`, width 0), the "C" locale, no
exception mask. A character is its code.
-/

namespace Verif.Bounded

open Verif

/-- What the code can observe of a `std::istream`: the characters not yet extracted,
`eofbit` and `failbit`. -/
structure IStream where
  buf : List Int
  eof : Bool := false
  fail : Bool := false
  deriving Repr, DecidableEq

/-- `std::isspace` in the "C" locale. -/
def isSpace (c : Int) : Bool := c = 32 || (9 ≤ c && c ≤ 13)

/-- One of the characters `0` to `9`. -/
def isDigit (c : Int) : Bool := 48 ≤ c && c ≤ 57

/-- `std::istream::sentry(stream)` [istream.sentry]: if the stream is not good, sets
`failbit`; otherwise skips whitespace, and if that reaches the end of the input sets
`eofbit` and `failbit`. The second component is whether the sentry is true. -/
def IStream.sentry (s : IStream) : IStream × Bool :=
  if s.eof || s.fail then ({ s with fail := true }, false)
  else
    let b := s.buf.dropWhile isSpace
    if b.isEmpty then (⟨[], true, true⟩, false) else (⟨b, false, false⟩, true)

/-- The sign at the start of the field, and what follows it. -/
def splitSign : List Int → Bool × List Int
  | 45 :: r => (true, r)
  | 43 :: r => (false, r)
  | b => (false, b)

/-- The number denoted by digits that follow a prefix with value `a`. -/
def magnitude (a : Nat) (ds : List Int) : Nat := ds.foldl (fun a d => a * 10 + (d - 48).toNat) a

/-- `std::num_get::get` [facet.num.get.virtuals] for type `t`: an optional sign and
digits; the value stored, whether `failbit` is set, and what remains. No digits: zero and
`failbit`. A number that does not fit: the nearest value and `failbit`. For an unsigned
type the conversion is that of `strtoull`: the magnitude is converted and then negated in
the type (libstdc++ and libc++ agree on this). -/
def numGet (t : CTy) (b : List Int) : Int × Bool × List Int :=
  let ds := (splitSign b).2.takeWhile isDigit
  let rest := (splitSign b).2.dropWhile isDigit
  let n : Int := magnitude 0 ds
  let v := if (splitSign b).1 then -n else n
  if ds.isEmpty then (0, true, rest)
  else if t.signed then
    if v < t.lo then (t.lo, true, rest) else if t.hi < v then (t.hi, true, rest) else (v, false, rest)
  else if t.hi < n then (t.hi, true, rest) else (t.wrap v, false, rest)

/-- `in >> temp` for an object `temp` of built-in type `t`
[istream.formatted.arithmetic]: `none` if nothing is stored in `temp`, which is the case
exactly if the sentry is false. `eofbit` is set if the end of the input was reached. -/
def IStream.extract (s : IStream) (t : CTy) : IStream × Option Int :=
  let (s, good) := s.sentry
  if good then
    let (v, f, rest) := numGet t s.buf
    (⟨rest, rest.isEmpty, f⟩, some v)
  else (s, none)

/-- source/bounded/stream.cpp 27-34: the type `intermediate`. A 128-bit underlying type
is rejected because the standard streams have no such overload (line 36). -/
def intermediate (u : CTy) : Option CTy :=
  if 64 < u.bits then none
  else if u.bits < 32 || (u.bits = 32 && u.signed) then some ⟨true, 32⟩
  else if u.bits = 32 then some ⟨false, 32⟩
  else some u

/-- source/bounded/stream.cpp 25-39 `in >> x`. `junk` is what reading the uninitialised
`temp` (line 35) gives: `none` where that is undefined behaviour (up to C++23), some value
of the type where it is erroneous behaviour (C++26). The stream has been changed when
`check_in_range` throws. -/
def readB (W : Nat) (junk : Option Int) (x : BInt) (s : IStream) : Option (Out (BInt × IStream)) := do
  let t ← intermediate (x.rng.under W)
  let (s', temp) := s.extract t
  match temp <|> junk with
  | none => some .ub
  | some v =>
    match ← checkInRangeTarget W x.rng (.bounded ((Arg.builtin t v).toB W)) with
    | .ub => some .ub
    | .exn => some (.exn (x, s'))
    | .ok c =>
      match ← assign W x c with
      | .ok c' => some (.ok (c', s'))
      | .ub => some .ub
      | .exn => some (.exn (x, s'))

/-- `out << v` for a value of the built-in type `t`: the narrow character types are
written as characters [ostream.inserters.character], other integers in decimal. There is
no overload for 128-bit integers. -/
def put (t : CTy) (v : Int) : Option (List Int) :=
  if t.bits = 8 then some [v] else if t.bits ≤ 64 then some (canonical v) else none

/-- source/bounded/stream.cpp 16-23 `out << x`: the characters inserted. -/
def writeB (W : Nat) (x : BInt) : Option (Res (List Int)) :=
  match x.value with
  | .ok v =>
    match put (x.rng.under W).promote ((x.rng.under W).promote.wrap v) with
    | some cs => some (.ok cs)
    | none => none
  | .ub => some .ub
  | .exn => some .exn

/-- `in >> x0 >> x1 >> ...`; an exception ends it. -/
def readMany (W : Nat) (junk : Option Int) : List BInt → IStream → Option (Out (List BInt × IStream))
  | [], s => some (.ok ([], s))
  | x :: xs, s => do
    match ← readB W junk x s with
    | .ub => some .ub
    | .exn p => some (.exn (p.1 :: xs, p.2))
    | .ok p =>
      match ← readMany W junk xs p.2 with
      | .ub => some .ub
      | .exn q => some (.exn (p.1 :: q.1, q.2))
      | .ok q => some (.ok (p.1 :: q.1, q.2))

/-! ## Specification -/

/-- `s` is a decimal number with an optional sign, denoting `v`. -/
def Field (s : List Int) (v : Int) : Prop :=
  Numeral s v ∨ (∃ r, s = 43 :: r ∧ Numeral r v) ∨ ∃ r, s = 45 :: r ∧ Numeral r (-v)

/-- The text after a field does not continue it. -/
def Ends (rest : List Int) : Prop := ∀ c ∈ rest.head?, isDigit c = false

/-- Only whitespace. -/
def Blank (ws : List Int) : Prop := ∀ c ∈ ws, isSpace c = true

/-- C65 and C66: whitespace is the six characters of the standard locale (of 0-127, which are the same in all encodings used) and nothing else. -/
theorem C65_whitespace (c : Int) : isSpace c = true ↔ c ∈ [' ', '\t', '\n', '\x0b', '\x0c', '\r'].map fun x => (x.toNat : Int) := by
  simp only [isSpace, Bool.or_eq_true, Bool.and_eq_true, decide_eq_true_eq]
  have : ([' ', '\t', '\n', '\x0b', '\x0c', '\r'].map fun x => (x.toNat : Int)) = [32, 9, 10, 11, 12, 13] := by decide
  rw [this]
  simp only [List.mem_cons, List.not_mem_nil, or_false]
  omega

section
variable {W : Nat}

theorem dropWhile_append_blank {ws rest : List Int} (h : Blank ws) :
    (ws ++ rest).dropWhile isSpace = rest.dropWhile isSpace := by
  induction ws with
  | nil => rfl
  | cons c ws ih =>
    rw [List.cons_append, List.dropWhile_cons_of_pos (h c (by simp))]
    exact ih fun d hd => h d (by simp [hd])

theorem isDigit_code {d : Nat} (h : d < 10) : isDigit (48 + (d : Int)) = true := by
  unfold isDigit
  simp only [Bool.and_eq_true, decide_eq_true_eq]
  omega

theorem not_space_code {d : Nat} (h : d < 10) : isSpace (48 + (d : Int)) = false := by
  unfold isSpace
  simp only [Bool.or_eq_false_iff, Bool.and_eq_false_iff, decide_eq_false_iff_not]
  omega

theorem magnitude_digits (ds : List Nat) (a : Nat) :
    magnitude a (ds.map fun d : Nat => 48 + (d : Int)) = Nat.ofDigits 10 (ds.reverse ++ [a]) := by
  induction ds generalizing a with
  | nil => simp [magnitude]
  | cons d ds ih =>
    have e : magnitude a ((d :: ds).map fun d : Nat => 48 + (d : Int)) =
        magnitude (a * 10 + d) (ds.map fun d : Nat => 48 + (d : Int)) := by
      unfold magnitude
      rw [List.map_cons, List.foldl_cons]
      congr 2
      omega
    rw [e, ih]
    simp only [List.reverse_cons, List.append_assoc, Nat.ofDigits_append, Nat.ofDigits_cons,
      Nat.ofDigits_nil, List.cons_append, List.nil_append]
    ring

theorem numeral_split {s : List Int} {v : Int} (h : Numeral s v) {rest : List Int} (hr : Ends rest) :
    (s ++ rest).takeWhile isDigit = s ∧ (s ++ rest).dropWhile isDigit = rest ∧ s.isEmpty = false ∧
      (magnitude 0 s : Int) = v ∧ 0 ≤ v ∧ ∃ d : Nat, d < 10 ∧ s.head? = some (48 + (d : Int)) := by
  obtain ⟨ds, h1, h2, h3, h4⟩ := h
  have hd : ∀ c ∈ s, isDigit c = true := by
    rw [h3]; intro c hc
    rw [List.mem_map] at hc
    obtain ⟨d, hd, rfl⟩ := hc
    exact isDigit_code (h2 d hd)
  refine ⟨?_, ?_, ?_, ?_, by omega, ?_⟩
  · rw [List.takeWhile_append_of_pos hd]
    cases rest with
    | nil => simp
    | cons c r => rw [List.takeWhile_cons_of_neg (by simp [hr c (by simp)])]; simp
  · rw [List.dropWhile_append_of_pos hd]
    cases rest with
    | nil => rfl
    | cons c r => rw [List.dropWhile_cons_of_neg (by simp [hr c (by simp)])]
  · rw [h3]; cases ds with
    | nil => exact absurd rfl h1
    | cons d ds => rfl
  · rw [h3, magnitude_digits, h4]
    simp [Nat.ofDigits_append]
  · cases ds with
    | nil => exact absurd rfl h1
    | cons d ds => exact ⟨d, h2 d (by simp), by rw [h3]; rfl⟩

theorem splitSign_numeral {s rest : List Int} {d : Nat} (hd : d < 10) (h : s.head? = some (48 + (d : Int))) :
    splitSign (s ++ rest) = (false, s ++ rest) := by
  cases s with
  | nil => simp at h
  | cons c s =>
    simp only [List.head?_cons, Option.some.injEq] at h
    rw [List.cons_append]
    unfold splitSign
    split
    · rename_i e; simp only [List.cons.injEq] at e; omega
    · rename_i e; simp only [List.cons.injEq] at e; omega
    · rfl

/-- A field does not start with whitespace and is not empty. -/
theorem field_head {s : List Int} {v : Int} (h : Field s v) : ∃ c r, s = c :: r ∧ isSpace c = false := by
  have num : ∀ {r : List Int} {v : Int}, Numeral r v → ∃ c q, r = c :: q ∧ isSpace c = false := by
    intro r v h
    obtain ⟨_, _, _, _, _, d, hd, hh⟩ := numeral_split h (rest := []) (by simp [Ends])
    cases r with
    | nil => simp at hh
    | cons c q =>
      simp only [List.head?_cons, Option.some.injEq] at hh
      exact ⟨c, q, rfl, hh ▸ not_space_code hd⟩
  rcases h with h | ⟨r, rfl, _⟩ | ⟨r, rfl, _⟩
  · exact num h
  · exact ⟨43, r, rfl, by decide⟩
  · exact ⟨45, r, rfl, by decide⟩

/-- The field that `num_get` sees. -/
theorem field_parts {s : List Int} {v : Int} (h : Field s v) {rest : List Int} (hr : Ends rest) :
    ∃ (neg : Bool) (ds : List Int), splitSign (s ++ rest) = (neg, ds ++ rest) ∧
      (ds ++ rest).takeWhile isDigit = ds ∧ (ds ++ rest).dropWhile isDigit = rest ∧ ds.isEmpty = false ∧
      (if neg then -(magnitude 0 ds : Int) else magnitude 0 ds) = v ∧ (neg = true ↔ s.head? = some 45) := by
  rcases h with h | ⟨r, rfl, h⟩ | ⟨r, rfl, h⟩
  · obtain ⟨a, b, c, d, _, k, hk, hh⟩ := numeral_split h hr
    refine ⟨false, s, splitSign_numeral hk hh, a, b, c, by simpa using d, ?_⟩
    rw [hh]; simp; omega
  · obtain ⟨a, b, c, d, _⟩ := numeral_split h hr
    exact ⟨false, r, rfl, a, b, c, by simpa using d, by simp⟩
  · obtain ⟨a, b, c, d, _⟩ := numeral_split h hr
    exact ⟨true, r, rfl, a, b, c, by simp only [if_true]; omega, by simp⟩

/-- The intermediate type holds every value of the bounded type. -/
theorem intermediate_spec (hW : 64 ≤ W) {r : Rng} (hwf : r.Wf W) {t : CTy} (h : intermediate (r.under W) = some t) :
    Ty W t ∧ t.lo ≤ r.lo ∧ r.hi ≤ t.hi ∧ (t.signed = true ∨ (0 ≤ r.lo ∧ (r.under W) = t ∧ 32 ≤ t.bits)) := by
  have w := ((wf_iff hW _).mp hwf).1
  obtain ⟨ht, hf⟩ := under_spec hW hwf
  have f1 := hf r.lo ⟨by omega, w⟩
  have f2 := hf r.hi ⟨w, by omega⟩
  unfold intermediate at h
  unfold CTy.Fits at f1 f2
  split at h
  · cases h
  · rename_i hb
    split at h
    · rename_i hs
      simp only [Option.some.injEq] at h
      subst h
      have hlo : (CTy.mk true 32).lo = -2147483648 := by decide
      have hhi : (CTy.mk true 32).hi = 2147483647 := by decide
      refine ⟨⟨by simp, by simp only; omega⟩, ?_, ?_, Or.inl rfl⟩
      all_goals
        simp only [Bool.or_eq_true, decide_eq_true_eq, Bool.and_eq_true] at hs
        have hp : (2 : Int) ^ (r.under W).bits ≤ 2 ^ 32 := CTy.two_pow_le (by omega)
        have hp1 : (2 : Int) ^ ((r.under W).bits - 1) ≤ 2 ^ 31 := CTy.two_pow_le (by omega)
        have hp2 : (r.under W).bits < 32 → (2 : Int) ^ (r.under W).bits ≤ 2 ^ 31 := fun _ => CTy.two_pow_le (by omega)
        unfold CTy.lo CTy.hi at f1 f2
        rw [show (2 : Int) ^ 31 = 2147483648 by norm_num] at hp1 hp2
        cases hu : (r.under W).signed <;> simp [hu] at f1 f2 hs
        · have := hp2 hs; omega
        · omega
    · rename_i hs
      split at h
      · rename_i h32
        simp only [Option.some.injEq] at h
        have hu : (r.under W).signed = false := by
          cases hu : (r.under W).signed
          · rfl
          · exact absurd (by simp [h32, hu]) hs
        have e : r.under W = t := by rw [← h, ← h32, ← hu]
        refine ⟨e ▸ ht, e ▸ f1.1, e ▸ f2.2, Or.inr ⟨?_, e, by rw [← h]⟩⟩
        have : (r.under W).lo = 0 := by unfold CTy.lo; simp [hu]
        omega
      · rename_i h32
        simp only [Option.some.injEq] at h
        subst h
        refine ⟨ht, f1.1, f2.2, ?_⟩
        cases hu : (r.under W).signed
        · have : (r.under W).lo = 0 := by unfold CTy.lo; simp [hu]
          refine Or.inr ⟨by omega, rfl, ?_⟩
          simp only [Bool.or_eq_true, decide_eq_true_eq, not_or] at hs
          omega
        · exact Or.inl rfl

/-- An underlying type narrower than `int` has at most 16 bits. -/
theorem under_bits (hW : 64 ≤ W) {r : Rng} (hwf : r.Wf W) (h : (r.under W).bits < 32) : (r.under W).bits ≤ 16 := by
  have hr := hwf.rep hW
  have w := (wf_iff hW _).mp hwf
  obtain ⟨t, ht⟩ := Option.isSome_iff_exists.mp ((determineType_isSome hW hr.1 hr.2 w.1).mpr w.2)
  have hm := (determineType_spec hW hr.1 hr.2 ht).1
  have e : r.under W = t := by unfold Rng.under; rw [ht]; rfl
  rw [e] at h ⊢
  unfold candidates at hm
  split at hm <;> simp at hm <;> rcases hm with h' | h' | h' | h' | h' | h' | h' | h' | h' | h' | h' | h' <;>
    (try subst h') <;> (try simp at h ⊢) <;> omega

/-- What `in >> x` does once a value is in `temp`. -/
theorem readB_value (hW : 64 ≤ W) {junk : Option Int} {x : BInt} (hwf : x.rng.Wf W) {t : CTy}
    (h : intermediate (x.rng.under W) = some t) {s s' : IStream} {temp : Option Int}
    (he : s.extract t = (s', temp)) {v : Int} (hv : (temp <|> junk) = some v) (hf : t.Fits v) :
    (x.rng.Mem v → ∃ c, readB W junk x s = some (.ok (c, s')) ∧ c.rng = x.rng ∧ c.value = .ok v) ∧
    (¬ x.rng.Mem v → readB W junk x s = some (.exn (x, s'))) := by
  obtain ⟨ht, l1, l2, _⟩ := intermediate_spec hW hwf h
  have w := ((wf_iff hW _).mp hwf).1
  have rr := hwf.rep hW
  have ha : ArgHolds W (.builtin t v) v := ⟨ht, hf, rfl⟩
  obtain ⟨hh, hrng⟩ := toB_holds hW ha
  have hrng' : ((Arg.builtin t v).toB W).rng = ⟨t.lo, t.hi⟩ := hrng
  have hc : checkInRangeTarget W x.rng (.bounded ((Arg.builtin t v).toB W)) ≠ none := by
    have ck := check_const hW hh rr.1 rr.2 w (by rw [hrng']; simp only; omega)
    unfold checkInRangeTarget
    by_cases hin : x.rng.lo ≤ v ∧ v ≤ x.rng.hi
    · obtain ⟨c, c1, c2, c3⟩ := ck.1 hin
      rw [c1]
      simp only [Option.bind_eq_bind, Option.bind_some]
      split
      · simp
      · obtain ⟨d, d1, _⟩ := convert_holds hW hwf c3 (by rw [c2, hrng']; simp only; omega)
        rw [d1]; simp
    · rw [ck.2 hin]; simp
  have sp := C13_check_in_range_target hW hwf (v := .bounded ((Arg.builtin t v).toB W)) hh hc
  unfold readB
  rw [h]
  simp only [Option.bind_eq_bind, Option.bind_some]
  rw [he]
  simp only [hv]
  refine ⟨fun hin => ?_, fun hout => ?_⟩
  · obtain ⟨c, c1, c2, c3, _⟩ := sp.1 hin
    refine ⟨c, ?_, c2, c3⟩
    rw [c1]
    simp only [Option.bind_some]
    unfold assign
    rw [if_pos c2.symm]
    rfl
  · rw [sp.2 hout]; rfl

theorem sentry_field {ws f rest : List Int} {v : Int} (hb : Blank ws) (hf : Field f v) :
    IStream.sentry ⟨ws ++ (f ++ rest), false, false⟩ = (⟨f ++ rest, false, false⟩, true) := by
  obtain ⟨c, r, rfl, hc⟩ := field_head hf
  unfold IStream.sentry
  simp only [Bool.or_self, Bool.false_eq_true, if_false, dropWhile_append_blank hb]
  rw [List.cons_append, List.dropWhile_cons_of_neg (by simp [hc])]
  simp

theorem extract_field {ws f rest : List Int} {v : Int} (hb : Blank ws) (hf : Field f v) (hr : Ends rest)
    {t : CTy} (hs : t.signed = true ∨ f.head? ≠ some 45) (ht : 1 ≤ t.bits) :
    (t.Fits v → IStream.extract ⟨ws ++ (f ++ rest), false, false⟩ t = (⟨rest, rest.isEmpty, false⟩, some v)) ∧
    (¬ t.Fits v → ∃ u, IStream.extract ⟨ws ++ (f ++ rest), false, false⟩ t = (⟨rest, rest.isEmpty, true⟩, some u) ∧
      t.Fits u ∧ (v < t.lo ∧ u = t.lo ∨ t.hi < v ∧ u = t.hi)) := by
  obtain ⟨neg, ds, h1, h2, h3, h4, h5, h6⟩ := field_parts hf hr
  have hlohi : t.Fits t.lo ∧ t.Fits t.hi := by
    have p1 := CTy.two_pow_pos (t.bits - 1)
    have p2 := CTy.two_pow_pos t.bits
    unfold CTy.Fits CTy.lo CTy.hi
    cases t.signed <;> simp <;> omega
  unfold IStream.extract
  rw [sentry_field hb hf]
  simp only [if_true]
  unfold numGet
  simp only [h1, h2, h3, h4, Bool.false_eq_true, if_false]
  rw [h5]
  unfold CTy.Fits at *
  rcases hs with hs | hs
  · simp only [hs, if_true]
    refine ⟨fun hf => ?_, fun hf => ?_⟩
    · rw [if_neg (by omega), if_neg (by omega)]
    · by_cases hl : v < t.lo
      · exact ⟨t.lo, by rw [if_pos hl], hlohi.1, Or.inl ⟨hl, rfl⟩⟩
      · exact ⟨t.hi, by rw [if_neg hl, if_pos (by omega)], hlohi.2, Or.inr ⟨by omega, rfl⟩⟩
  · have hneg : neg = false := by
      cases neg
      · rfl
      · exact absurd (h6.mp rfl) hs
    subst hneg
    simp only [Bool.false_eq_true, if_false] at h5
    rw [h5]
    cases hsg : t.signed
    · have hlo : t.lo = 0 := by unfold CTy.lo; simp [hsg]
      simp only [Bool.false_eq_true, if_false]
      refine ⟨fun hf => ?_, fun hf => ?_⟩
      · rw [if_neg (by omega), CTy.wrap_of_fits ht (by unfold CTy.Fits; omega)]
      · exact ⟨t.hi, by rw [if_pos (by omega)], hlohi.2, Or.inr ⟨by omega, rfl⟩⟩
    · simp only [if_true]
      refine ⟨fun hf => ?_, fun hf => ?_⟩
      · rw [if_neg (by omega), if_neg (by omega)]
      · by_cases hl : v < t.lo
        · exact ⟨t.lo, by rw [if_pos hl], hlohi.1, Or.inl ⟨hl, rfl⟩⟩
        · exact ⟨t.hi, by rw [if_neg hl, if_pos (by omega)], hlohi.2, Or.inr ⟨by omega, rfl⟩⟩

/-! ## Theorems -/

/-- C65: `out << x` compiles for every bounded integer with an underlying type of at most
64 bits and writes the canonical decimal representation of the value, also if the
underlying type is a character type. -/
theorem C65_write (hW : 64 ≤ W) {x : BInt} {v : Int} (hx : Holds W x v) (h64 : (x.rng.under W).bits ≤ 64) :
    writeB W x = some (.ok (canonical v)) := by
  obtain ⟨ht, hf⟩ := under_spec hW hx.1
  have mx := value_mem hx.2 ((wf_iff hW _).mp hx.1).1
  have fv := hf v mx
  have hp : (x.rng.under W).promote.Fits v ∧ 1 ≤ (x.rng.under W).promote.bits ∧
      (x.rng.under W).promote.bits ≠ 8 ∧ (x.rng.under W).promote.bits ≤ 64 := by
    unfold CTy.promote
    split
    · rename_i hb
      refine ⟨?_, by simp, by simp, by simp⟩
      have hp1 : (2 : Int) ^ ((x.rng.under W).bits - 1) ≤ 2 ^ 31 := CTy.two_pow_le (by omega)
      have hp2 : (2 : Int) ^ (x.rng.under W).bits ≤ 2 ^ 31 := CTy.two_pow_le (by omega)
      rw [show (2 : Int) ^ 31 = 2147483648 by norm_num] at hp1 hp2
      have hlo : (CTy.mk true 32).lo = -2147483648 := by decide
      have hhi : (CTy.mk true 32).hi = 2147483647 := by decide
      unfold CTy.Fits at fv ⊢
      rw [hlo, hhi]
      unfold CTy.lo CTy.hi at fv
      cases hu : (x.rng.under W).signed <;> simp [hu] at fv <;> omega
    · exact ⟨fv, ht.1, by omega, h64⟩
  unfold writeB
  rw [hx.2]
  simp only [CTy.wrap_of_fits hp.2.1 hp.1]
  unfold put
  rw [if_neg hp.2.2.1, if_pos hp.2.2.2]

/-- C65: reading. The input is any whitespace, a decimal number with an optional sign that
denotes `v`, and anything that does not continue the number. If `v` is a value of the type
it is stored and the stream does not fail. Otherwise an exception is thrown and the
variable keeps its value, or, as for built-in integers, the stream fails and the nearest
value of the type is stored (possible only if the bound of the type is that of `int` or of
a wider built-in type). In all cases exactly the whitespace and the number are consumed.
Nothing depends on the content of uninitialised memory.

Partial: for a type with an unsigned underlying type of 32 or more bits the number must
not start with `-`, see `C65_read_minus_violated`; for an input without a number see
`C65_read_end_violated` and `C65_read_word`. -/
theorem C65_read_partial (hW : 64 ≤ W) {junk : Option Int} {x : BInt} (hwf : x.rng.Wf W)
    (h64 : (x.rng.under W).bits ≤ 64) {ws f rest : List Int} {v : Int} (hb : Blank ws) (hf : Field f v)
    (hr : Ends rest) (hs : f.head? ≠ some 45 ∨ (x.rng.under W).signed = true ∨ (x.rng.under W).bits < 32) :
    (x.rng.Mem v → ∃ c, readB W junk x ⟨ws ++ (f ++ rest), false, false⟩ =
        some (.ok (c, ⟨rest, rest.isEmpty, false⟩)) ∧ c.rng = x.rng ∧ c.value = .ok v) ∧
    (¬ x.rng.Mem v → (∃ fl, readB W junk x ⟨ws ++ (f ++ rest), false, false⟩ =
        some (.exn (x, ⟨rest, rest.isEmpty, fl⟩))) ∨
      32 ≤ (x.rng.under W).bits ∧ ∃ c u, readB W junk x ⟨ws ++ (f ++ rest), false, false⟩ =
        some (.ok (c, ⟨rest, rest.isEmpty, true⟩)) ∧ c.rng = x.rng ∧ c.value = .ok u ∧
        (v < u ∧ u = x.rng.lo ∨ u < v ∧ u = x.rng.hi)) := by
  have hi : ∃ t, intermediate (x.rng.under W) = some t := by
    unfold intermediate
    rw [if_neg (by omega)]
    split
    · exact ⟨_, rfl⟩
    · split <;> exact ⟨_, rfl⟩
  obtain ⟨t, hi⟩ := hi
  obtain ⟨ht, l1, l2, l3⟩ := intermediate_spec hW hwf hi
  have hs' : t.signed = true ∨ f.head? ≠ some 45 := by
    rcases l3 with l3 | ⟨_, l3, l4⟩
    · exact Or.inl l3
    · rw [l3] at hs
      rcases hs with hs | hs | hs
      · exact Or.inr hs
      · exact Or.inl hs
      · omega
  have ex := extract_field (rest := rest) hb hf hr hs' ht.1
  refine ⟨fun hin => ?_, fun hout => ?_⟩
  · have hfit : t.Fits v := by unfold CTy.Fits Rng.Mem at *; omega
    exact (readB_value hW (junk := junk) hwf hi (ex.1 hfit) rfl hfit).1 hin
  · by_cases hfit : t.Fits v
    · exact Or.inl ⟨false, (readB_value hW (junk := junk) hwf hi (ex.1 hfit) rfl hfit).2 hout⟩
    · obtain ⟨u, u1, u2, u3⟩ := ex.2 hfit
      have rv := readB_value hW (junk := junk) hwf hi u1 rfl u2
      by_cases hu : x.rng.Mem u
      · refine Or.inr ⟨?_, ?_⟩
        · by_contra hlt
          -- a narrower type cannot contain an extreme value of `int`
          have hbits : (x.rng.under W).bits < 32 := by omega
          have h16 := under_bits hW hwf hbits
          have e : t = ⟨true, 32⟩ := by
            unfold intermediate at hi
            rw [if_neg (by omega), if_pos (by simp [hbits])] at hi
            simpa using hi.symm
          have fu := (under_spec hW hwf).2 u hu
          have hlo : (CTy.mk true 32).lo = -2147483648 := by decide
          have hhi : (CTy.mk true 32).hi = 2147483647 := by decide
          have hp1 : (2 : Int) ^ ((x.rng.under W).bits - 1) < 2 ^ 31 := by
            have : (2 : Int) ^ ((x.rng.under W).bits - 1) ≤ 2 ^ 30 := CTy.two_pow_le (by omega)
            have e : (2 : Int) ^ 30 < 2 ^ 31 := by norm_num
            omega
          have hp2 : (2 : Int) ^ (x.rng.under W).bits ≤ 2 ^ 16 := CTy.two_pow_le h16
          rw [show (2 : Int) ^ 31 = 2147483648 by norm_num] at hp1
          rw [show (2 : Int) ^ 16 = 65536 by norm_num] at hp2
          rw [e, hlo, hhi] at u3
          unfold CTy.Fits CTy.lo CTy.hi at fu
          cases hsg : (x.rng.under W).signed <;> simp [hsg] at fu <;> omega
        · obtain ⟨c, c1, c2, c3⟩ := rv.1 hu
          refine ⟨c, u, c1, c2, c3, ?_⟩
          unfold Rng.Mem at *
          rcases u3 with u3 | u3
          · left; omega
          · right; omega
      · exact Or.inl ⟨true, rv.2 hu⟩

/-- C65: an input that starts, after whitespace, with something that is neither a digit nor
a sign makes the stream fail; nothing but the whitespace is consumed, and, as for built-in
integers, the variable becomes zero. If zero is not a value of the type the variable is
unchanged but an exception is thrown although the stream reports the failure. -/
theorem C65_read_word (hW : 64 ≤ W) {junk : Option Int} {x : BInt} (hwf : x.rng.Wf W)
    (h64 : (x.rng.under W).bits ≤ 64) {ws rest : List Int} {c : Int} (hb : Blank ws)
    (hc : isSpace c = false ∧ isDigit c = false ∧ c ≠ 43 ∧ c ≠ 45) :
    (x.rng.Mem 0 → ∃ z, readB W junk x ⟨ws ++ c :: rest, false, false⟩ = some (.ok (z, ⟨c :: rest, false, true⟩)) ∧
      z.rng = x.rng ∧ z.value = .ok 0) ∧
    (¬ x.rng.Mem 0 → readB W junk x ⟨ws ++ c :: rest, false, false⟩ = some (.exn (x, ⟨c :: rest, false, true⟩))) := by
  have hi : ∃ t, intermediate (x.rng.under W) = some t := by
    unfold intermediate
    rw [if_neg (by omega)]
    split
    · exact ⟨_, rfl⟩
    · split <;> exact ⟨_, rfl⟩
  obtain ⟨t, hi⟩ := hi
  obtain ⟨ht, l1, l2, l3⟩ := intermediate_spec hW hwf hi
  have tb := ty_bounds hW ht
  have hsp : splitSign (c :: rest) = (false, c :: rest) := by
    unfold splitSign
    split
    · rename_i e; simp only [List.cons.injEq] at e; exact absurd e.1 hc.2.2.2
    · rename_i e; simp only [List.cons.injEq] at e; exact absurd e.1 hc.2.2.1
    · rfl
  have he : IStream.extract ⟨ws ++ c :: rest, false, false⟩ t = (⟨c :: rest, false, true⟩, some 0) := by
    unfold IStream.extract IStream.sentry
    simp only [Bool.or_self, Bool.false_eq_true, if_false, dropWhile_append_blank hb,
      List.dropWhile_cons_of_neg (show ¬ isSpace c = true by simp [hc.1]), List.isEmpty_cons, if_true]
    unfold numGet
    simp only [hsp, List.takeWhile_cons_of_neg (show ¬ isDigit c = true by simp [hc.2.1]),
      List.dropWhile_cons_of_neg (show ¬ isDigit c = true by simp [hc.2.1]), List.isEmpty_nil, if_true,
      List.isEmpty_cons]
  exact readB_value hW hwf hi he rfl (by unfold CTy.Fits; omega)

theorem canonical_field (v : Int) : Field (canonical v) v ∧ (0 ≤ v → (canonical v).head? ≠ some 45) := by
  obtain ⟨h1, h2, h3⟩ := decimal_spec v.natAbs
  have hn : Numeral ((decimal v.natAbs).map fun d : Nat => 48 + (d : Int)) (v.natAbs : Nat) :=
    ⟨decimal v.natAbs, h1, h2, rfl, by rw [h3]⟩
  unfold canonical
  by_cases hv : v < 0
  · rw [if_pos hv]
    refine ⟨Or.inr (Or.inr ⟨_, rfl, ?_⟩), by omega⟩
    rwa [show -v = ((v.natAbs : Nat) : Int) by omega]
  · rw [if_neg hv, List.nil_append]
    have e : ((v.natAbs : Nat) : Int) = v := by omega
    rw [e] at hn
    refine ⟨Or.inl hn, fun _ => ?_⟩
    obtain ⟨_, _, _, _, _, d, hd, hh⟩ := numeral_split hn (rest := []) (by simp [Ends])
    rw [hh]; simp; omega

/-- The texts of some values, each followed by its separator. -/
def joined : List (List Int) → List (List Int) → List Int
  | t :: ts, sep :: seps => t ++ (sep ++ joined ts seps)
  | _, _ => []

theorem blank_ends {sep rest : List Int} (h : Blank sep) (hne : sep ≠ []) : Ends (sep ++ rest) := by
  cases sep with
  | nil => exact absurd rfl hne
  | cons c s =>
    intro d hd
    simp only [List.cons_append, List.head?_cons, Option.mem_def, Option.some.injEq] at hd
    subst hd
    have := h c (by simp)
    unfold isSpace at this
    unfold isDigit
    simp only [Bool.or_eq_true, decide_eq_true_eq, Bool.and_eq_true] at this
    simp only [Bool.and_eq_false_iff, decide_eq_false_iff_not]
    omega

/-- C65: round trip. Any number of values of any types, each written with `<<` and followed
by any whitespace, is read back with `>>` into variables of those types: every variable
gets its value, nothing fails and nothing throws. The condition on the widths is the one
under which `<<` and `>>` compile. -/
theorem C65_round_trip (hW : 64 ≤ W) {junk : Option Int} {bs xs : List BInt} {vs : List Int}
    {texts seps : List (List Int)} (hbs : List.Forall₂ (Holds W) bs vs)
    (hw : List.Forall₂ (fun b t => writeB W b = some (.ok t)) bs texts)
    (h64 : ∀ b ∈ bs, (b.rng.under W).bits ≤ 64)
    (hx : List.Forall₂ (fun x b => x.rng = b.rng) xs bs)
    (hl : seps.length = bs.length) (hs : ∀ sep ∈ seps, Blank sep ∧ sep ≠ []) {ws : List Int} (hws : Blank ws) :
    ∃ cs s, readMany W junk xs ⟨ws ++ joined texts seps, false, false⟩ = some (.ok (cs, s)) ∧ s.fail = false ∧
      List.Forall₂ (fun c b => c.rng = b.rng) cs bs ∧ List.Forall₂ (fun c v => c.value = .ok v) cs vs := by
  induction hx generalizing vs texts seps ws with
  | nil =>
    cases hbs
    exact ⟨[], _, rfl, rfl, .nil, .nil⟩
  | @cons x b xs bs hxb hx ih =>
    cases hbs with
    | @cons _ v _ vs hv hvs =>
    cases hw with
    | @cons _ t _ texts ht hts =>
    cases seps with
    | nil => simp at hl
    | cons sep seps =>
    have hb64 := h64 b (by simp)
    rw [C65_write hW hv hb64] at ht
    simp only [Option.some.injEq, Res.ok.injEq] at ht
    subst ht
    obtain ⟨hsb, hsne⟩ := hs sep (by simp)
    obtain ⟨cf1, cf2⟩ := canonical_field v
    have mv := value_mem hv.2 ((wf_iff hW _).mp hv.1).1
    have hwf : x.rng.Wf W := by rw [hxb]; exact hv.1
    have hsign : (canonical v).head? ≠ some 45 ∨ (x.rng.under W).signed = true ∨ (x.rng.under W).bits < 32 := by
      cases hu : (x.rng.under W).signed
      · left; apply cf2
        have fv := (under_spec hW hwf).2 v (hxb ▸ mv)
        unfold CTy.Fits CTy.lo at fv
        simp [hu] at fv
        exact fv.1
      · exact Or.inr (Or.inl rfl)
    obtain ⟨c, c1, c2, c3⟩ := (C65_read_partial hW (junk := junk) hwf (by rw [hxb]; exact hb64) hws cf1
      (blank_ends (rest := joined texts seps) hsb hsne) hsign).1 (by rw [hxb]; exact mv)
    have hse : (sep ++ joined texts seps).isEmpty = false := by
      cases sep with
      | nil => exact absurd rfl hsne
      | cons _ _ => rfl
    obtain ⟨cs, s, k1, k2, k3, k4⟩ := ih (seps := seps) hvs hts (fun b hb => h64 b (by simp [hb]))
      (by simpa using hl) (fun q hq => hs q (by simp [hq])) hsb
    refine ⟨c :: cs, s, ?_, k2, .cons (c2.trans hxb) k3, .cons c3 k4⟩
    unfold readMany
    simp only [joined]
    rw [c1]
    simp only [Option.bind_eq_bind, Option.bind_some]
    rw [hse, k1]
    rfl

/-- What is read in front of the rest; an exception keeps what was read before it, and undefined behaviour stays undefined. -/
def readAfter (cs : List BInt) : Out (List BInt × IStream) → Out (List BInt × IStream)
  | .ok q => .ok (cs ++ q.1, q.2)
  | .exn q => .exn (cs ++ q.1, q.2)
  | .ub => .ub

/-- C65: reading several variables in one expression, if the input starts with values of the types of the first variables (written with `<<`, any whitespace
behind each). Those variables get their values, also if reading the others throws or is undefined; the others are read as if the expression started with them, at the
whitespace behind the last value. -/
theorem C65_read_several (hW : 64 ≤ W) {junk : Option Int} {bs xs ys : List BInt} {vs : List Int}
    {texts seps : List (List Int)} (hbs : List.Forall₂ (Holds W) bs vs)
    (hw : List.Forall₂ (fun b t => writeB W b = some (.ok t)) bs texts)
    (h64 : ∀ b ∈ bs, (b.rng.under W).bits ≤ 64)
    (hx : List.Forall₂ (fun x b => x.rng = b.rng) xs bs)
    (hl : seps.length = bs.length) (hs : ∀ sep ∈ seps, Blank sep ∧ sep ≠ []) {ws rest : List Int} (hws : Blank ws) :
    ∃ cs, List.Forall₂ (fun c b => c.rng = b.rng) cs bs ∧ List.Forall₂ (fun c v => c.value = .ok v) cs vs ∧
      readMany W junk (xs ++ ys) ⟨ws ++ (joined texts seps ++ rest), false, false⟩ =
        (readMany W junk ys ⟨seps.getLastD ws ++ rest, false, false⟩).map (readAfter cs) := by
  induction hx generalizing vs texts seps ws with
  | nil =>
    cases hbs
    cases hw
    cases seps with
    | cons _ _ => simp at hl
    | nil =>
    refine ⟨[], .nil, .nil, ?_⟩
    have e : readAfter ([] : List BInt) = id := by funext o; cases o <;> rfl
    simp [joined, e]
  | @cons x b xs bs hxb hx ih =>
    cases hbs with
    | @cons _ v _ vs hv hvs =>
    cases hw with
    | @cons _ t _ texts ht hts =>
    cases seps with
    | nil => simp at hl
    | cons sep seps =>
    have hb64 := h64 b (by simp)
    rw [C65_write hW hv hb64] at ht
    simp only [Option.some.injEq, Res.ok.injEq] at ht
    subst ht
    obtain ⟨hsb, hsne⟩ := hs sep (by simp)
    obtain ⟨cf1, cf2⟩ := canonical_field v
    have mv := value_mem hv.2 ((wf_iff hW _).mp hv.1).1
    have hwf : x.rng.Wf W := by rw [hxb]; exact hv.1
    have hsign : (canonical v).head? ≠ some 45 ∨ (x.rng.under W).signed = true ∨ (x.rng.under W).bits < 32 := by
      cases hu : (x.rng.under W).signed
      · left; apply cf2
        have fv := (under_spec hW hwf).2 v (hxb ▸ mv)
        unfold CTy.Fits CTy.lo at fv
        simp [hu] at fv
        exact fv.1
      · exact Or.inr (Or.inl rfl)
    obtain ⟨c, c1, c2, c3⟩ := (C65_read_partial hW (junk := junk) hwf (by rw [hxb]; exact hb64) hws cf1
      (blank_ends (rest := joined texts seps ++ rest) hsb hsne) hsign).1 (by rw [hxb]; exact mv)
    have hse : (sep ++ (joined texts seps ++ rest)).isEmpty = false := by
      cases sep with
      | nil => exact absurd rfl hsne
      | cons _ _ => rfl
    obtain ⟨cs, k1, k2, k3⟩ := ih (seps := seps) hvs hts (fun b hb => h64 b (by simp [hb]))
      (by simpa using hl) (fun q hq => hs q (by simp [hq])) hsb
    refine ⟨c :: cs, .cons (c2.trans hxb) k1, .cons c3 k2, ?_⟩
    rw [List.cons_append, readMany]
    simp only [joined, List.append_assoc, List.getLastD_cons]
    rw [c1]
    simp only [Option.bind_eq_bind, Option.bind_some]
    rw [hse, k3]
    cases readMany W junk ys ⟨seps.getLastD sep ++ rest, false, false⟩ with
    | none => rfl
    | some o => cases o <;> rfl

/-- C65: if the number behind those values is not a value of the type of the next variable (here one whose underlying type is narrower than `int`), `>>` throws: that
variable and all later ones keep their values, the earlier ones have theirs, and the input is at the end of that number. -/
theorem C65_read_several_throws (hW : 64 ≤ W) {junk : Option Int} {bs xs ys : List BInt} {y : BInt} {vs : List Int}
    {texts seps : List (List Int)} (hbs : List.Forall₂ (Holds W) bs vs)
    (hw : List.Forall₂ (fun b t => writeB W b = some (.ok t)) bs texts)
    (h64 : ∀ b ∈ bs, (b.rng.under W).bits ≤ 64)
    (hx : List.Forall₂ (fun x b => x.rng = b.rng) xs bs)
    (hl : seps.length = bs.length) (hs : ∀ sep ∈ seps, Blank sep ∧ sep ≠ []) {ws f rest : List Int} (hws : Blank ws)
    (hy : y.rng.Wf W) (hy32 : (y.rng.under W).bits < 32) {v : Int} (hf : Field f v) (hr : Ends rest) (hv : ¬ y.rng.Mem v) :
    ∃ cs fl, List.Forall₂ (fun c b => c.rng = b.rng) cs bs ∧ List.Forall₂ (fun c v => c.value = .ok v) cs vs ∧
      readMany W junk (xs ++ y :: ys) ⟨ws ++ (joined texts seps ++ (f ++ rest)), false, false⟩ =
        some (.exn (cs ++ y :: ys, ⟨rest, rest.isEmpty, fl⟩)) := by
  obtain ⟨cs, k1, k2, k3⟩ := C65_read_several hW (junk := junk) (ys := y :: ys) (rest := f ++ rest) hbs hw h64 hx hl hs hws
  have hb : Blank (seps.getLastD ws) := by
    cases h : seps.getLast? with
    | none => simpa [List.getLastD_eq_getLast?, h] using hws
    | some q => simpa [List.getLastD_eq_getLast?, h] using (hs q (List.mem_of_getLast? h)).1
  rcases (C65_read_partial hW (junk := junk) (x := y) hy (by omega) hb hf hr (Or.inr (Or.inr hy32))).2 hv with ⟨fl, e⟩ | ⟨h, _⟩
  · refine ⟨cs, fl, k1, k2, ?_⟩
    rw [k3, readMany, e]
    rfl
  · omega

/-- C65 is violated at the end of the input: if only whitespace is left (also nothing at
all), and if the stream has already failed or reached its end, `in >> x` reads an
uninitialised variable. Where that is undefined behaviour, every loop
`while (in >> x)` ends in it; otherwise the variable is overwritten with whatever the
memory contained if that is a value of the type, and an exception is thrown if not. -/
theorem C65_read_end_violated (hW : 64 ≤ W) {x : BInt} (hwf : x.rng.Wf W)
    (h64 : (x.rng.under W).bits ≤ 64) {s : IStream} (hs : Blank s.buf ∨ s.eof = true ∨ s.fail = true) :
    readB W none x s = some .ub ∧
    ∀ t, intermediate (x.rng.under W) = some t → ∀ j, t.Fits j →
      (x.rng.Mem j → ∃ c s', readB W (some j) x s = some (.ok (c, s')) ∧ s'.fail = true ∧ c.rng = x.rng ∧
        c.value = .ok j) ∧
      (¬ x.rng.Mem j → ∃ s', readB W (some j) x s = some (.exn (x, s')) ∧ s'.fail = true) := by
  have he : ∀ t, ∃ s', s.extract t = (s', none) ∧ s'.fail = true := by
    intro t
    unfold IStream.extract IStream.sentry
    by_cases hg : s.eof = true ∨ s.fail = true
    · rw [if_pos (by rcases hg with h | h <;> simp [h])]
      exact ⟨_, rfl, rfl⟩
    · rw [if_neg (by simpa using hg)]
      have hb : s.buf.dropWhile isSpace = [] := by
        rcases hs with h | h
        · have := dropWhile_append_blank (rest := []) h
          simpa using this
        · exact absurd h hg
      simp only [hb, List.isEmpty_nil, if_true]
      exact ⟨_, rfl, rfl⟩
  refine ⟨?_, fun t ht j hj => ?_⟩
  · have hi : ∃ t, intermediate (x.rng.under W) = some t := by
      unfold intermediate
      rw [if_neg (by omega)]
      split
      · exact ⟨_, rfl⟩
      · split <;> exact ⟨_, rfl⟩
    obtain ⟨t, hi⟩ := hi
    obtain ⟨s', h1, _⟩ := he t
    unfold readB
    rw [hi]
    simp only [Option.bind_eq_bind, Option.bind_some]
    rw [h1]
    rfl
  · obtain ⟨s', h1, h2⟩ := he t
    have rv := readB_value hW (junk := some j) hwf ht h1 rfl hj
    exact ⟨fun h => by obtain ⟨c, c1, c2, c3⟩ := rv.1 h; exact ⟨c, s', c1, h2, c2, c3⟩,
      fun h => ⟨s', rv.2 h, h2⟩⟩

end

/-- C65 is violated for negative numbers and unsigned underlying types of 32 or more bits:
reading `-1` into an `integer<0, 4294967295>` succeeds and stores 4294967295. For
`integer<0, 100>` the same text makes `>>` throw, as it should. -/
theorem C65_read_minus_violated :
    readB 128 none ⟨⟨0, 4294967295⟩, 7⟩ ⟨[45, 49, 10], false, false⟩ =
      some (.ok (⟨⟨0, 4294967295⟩, 4294967295⟩, ⟨[10], false, false⟩)) ∧
    readB 128 none ⟨⟨0, 100⟩, 7⟩ ⟨[45, 49, 10], false, false⟩ =
      some (.exn (⟨⟨0, 100⟩, 7⟩, ⟨[10], false, false⟩)) := by
  decide +kernel

/-- The hypotheses of `C65_read_partial` are met by ` -17 ` read into an
`integer<-100, 100>`. -/
example : Rng.Wf 128 ⟨-100, 100⟩ ∧ ((Rng.mk (-100) 100).under 128).bits ≤ 64 ∧ Blank [32] ∧
    Field [45, 49, 55] (-17) ∧ Ends [32] ∧
    ((Rng.mk (-100) 100).under 128).signed = true := by
  refine ⟨by decide +kernel, by decide +kernel, by simp [Blank, isSpace], ?_, by simp [Ends, isDigit], by decide +kernel⟩
  exact Or.inr (Or.inr ⟨_, rfl, [1, 7], by decide, by decide, by decide, by decide⟩)

/-- Two values of different types, written and read back. -/
example : writeB 128 ⟨⟨-5, 5⟩, -3⟩ = some (.ok [45, 51]) ∧
    writeB 128 ⟨⟨0, 4294967295⟩, 65⟩ = some (.ok [54, 53]) ∧
    readMany 128 none [⟨⟨-5, 5⟩, 0⟩, ⟨⟨0, 4294967295⟩, 0⟩] ⟨joined [[45, 51], [54, 53]] [[32], [10]], false, false⟩ =
      some (.ok ([⟨⟨-5, 5⟩, -3⟩, ⟨⟨0, 4294967295⟩, 65⟩], ⟨[10], false, false⟩)) := by
  decide +kernel

/-- As in `C65_read_several`: the second number is not one of its type, so that the third is not read. -/
example : readMany 128 none [⟨⟨-5, 5⟩, 0⟩, ⟨⟨0, 9⟩, 1⟩, ⟨⟨0, 9⟩, 2⟩] ⟨joined [[45, 51]] [[32]] ++ [54, 53, 32, 49], false, false⟩ =
    some (.exn ([⟨⟨-5, 5⟩, -3⟩, ⟨⟨0, 9⟩, 1⟩, ⟨⟨0, 9⟩, 2⟩], ⟨[32, 49], false, false⟩)) := by
  decide +kernel

end Verif.Bounded
