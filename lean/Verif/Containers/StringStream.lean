import Verif.Bounded.Stream

/-!
# Reading and writing `containers::string` (property C66)

`push_back`, `clear` and `is_empty` act on the sequence of characters (C25, C27 prove that
for `sbo_vector`, the base of `string`). The assumptions about the standard streams are
those of `Verif.Bounded.Stream`, with the flag `skipws` and the field width.
-/

namespace Verif.Containers

open Verif Verif.Bounded

/-- A `std::istream` with its `skipws` flag and its `width()`. -/
structure TextStream where
  s : IStream
  skipws : Bool := true
  width : Int := 0
  deriving Repr, DecidableEq

/-- `std::istream::sentry(stream)` without `noskipws`: whitespace is skipped only if the
flag is set, and only skipping notices the end of the input. -/
def TextStream.sentry (t : TextStream) : TextStream × Bool :=
  if t.s.eof || t.s.fail then ({ t with s := { t.s with fail := true } }, false)
  else if t.skipws then ({ t with s := (t.s.sentry).1 }, (t.s.sentry).2)
  else (t, true)

/-- source/containers/string.cpp 89-91: `max_characters`, with
`max_width = numeric_traits::max_value<range_size_t<string>>`. -/
def maxCharacters (maxWidth : Int) (width : Int) : Int :=
  if width ≤ 0 then maxWidth else if width < 1 then 1 else if maxWidth < width then maxWidth else width

/-- source/containers/string.cpp 93-101: the loop over the stream buffer; `buf` are the
characters not yet extracted. `oom n`: appending to a string of `n` characters throws
(memory). The character is extracted (`++it`) only after it was appended. -/
def readLoop (maxChars : Int) (oom : Nat → Bool) : List Int → List Int → Out (List Int × List Int)
  | str, [] => .ok (str, [])
  | str, c :: buf =>
    if (str.length : Int) = maxChars then .ok (str, c :: buf)
    else if isSpace c then .ok (str, c :: buf)
    else if oom str.length then .exn (str, c :: buf)
    else readLoop maxChars oom (str ++ [c]) buf

/-- source/containers/string.cpp 84-107 `stream >> str`. -/
def readString (maxWidth : Int) (oom : Nat → Bool) (str : List Int) (t : TextStream) :
    Out (List Int × TextStream) :=
  let (t, good) := t.sentry
  if !good then .ok (str, t)
  else
    match readLoop (maxCharacters maxWidth t.width) oom [] t.s.buf with
    | .ub => .ub
    | .exn (str, buf) => .exn (str, { t with s := { t.s with buf := buf } })
    | .ok (str, buf) =>
      .ok (str, { t with s := { t.s with buf := buf, fail := t.s.fail || str.isEmpty }, width := 0 })

/-- `in >> s0 >> s1 >> ...`, all into one variable whose values are recorded. -/
def readStrings (maxWidth : Int) (oom : Nat → Bool) : Nat → TextStream → Out (List (List Int) × TextStream)
  | 0, t => .ok ([], t)
  | n + 1, t =>
    match readString maxWidth oom [] t with
    | .ub => .ub
    | .exn p => .exn ([], p.2)
    | .ok p =>
      match readStrings maxWidth oom n p.2 with
      | .ub => .ub
      | .exn q => .exn (p.1 :: q.1, q.2)
      | .ok q => .ok (p.1 :: q.1, q.2)

/-! ## Specification -/

/-- The limit that the width sets: none if it is not positive. The size of a string is
limited in any case. -/
def limit (maxWidth width : Int) : Nat := if 0 < width then (min width maxWidth).toNat else maxWidth.toNat

/-- The characters before the first whitespace. -/
def firstWord (b : List Int) : List Int := b.takeWhile fun c => !isSpace c

theorem maxCharacters_eq {maxWidth width : Int} (h : 1 ≤ maxWidth) :
    maxCharacters maxWidth width = (limit maxWidth width : Int) ∧ 1 ≤ limit maxWidth width := by
  unfold maxCharacters limit
  by_cases h0 : width ≤ 0
  · rw [if_pos h0, if_neg (by omega)]; omega
  · rw [if_neg h0, if_neg (show ¬ width < 1 by omega), if_pos (show 0 < width by omega)]
    split <;> omega

theorem readLoop_ok {M : Nat} {oom : Nat → Bool} (ho : ∀ n, n < M → oom n = false) (buf str : List Int)
    (hl : str.length ≤ M) :
    readLoop M oom str buf =
      .ok (str ++ (firstWord buf).take (M - str.length), buf.drop ((firstWord buf).take (M - str.length)).length) := by
  induction buf generalizing str with
  | nil => simp [readLoop, firstWord]
  | cons c buf ih =>
    unfold readLoop
    by_cases h1 : (str.length : Int) = M
    · rw [if_pos h1]
      have : M - str.length = 0 := by omega
      simp [this]
    · rw [if_neg h1]
      by_cases h2 : isSpace c = true
      · rw [if_pos h2]
        have : firstWord (c :: buf) = [] := by unfold firstWord; rw [List.takeWhile_cons_of_neg (by simp [h2])]
        simp [this]
      · rw [if_neg h2, if_neg (by simp [ho str.length (by omega)]), ih (str ++ [c]) (by simp; omega)]
        have hw : firstWord (c :: buf) = c :: firstWord buf := by
          unfold firstWord; rw [List.takeWhile_cons_of_pos (by simp [h2])]
        have e : M - str.length = (M - (str ++ [c]).length) + 1 := by simp; omega
        rw [hw, e, List.take_succ_cons]
        simp

theorem readLoop_any {M : Int} {oom : Nat → Bool} (buf str : List Int) :
    ∃ read rest, str ++ read ++ rest = str ++ buf ∧ (readLoop M oom str buf = .ok (str ++ read, rest) ∨
      (readLoop M oom str buf = .exn (str ++ read, rest) ∧ oom (str ++ read).length = true)) := by
  induction buf generalizing str with
  | nil => exact ⟨[], [], by simp, Or.inl (by simp [readLoop])⟩
  | cons c buf ih =>
    unfold readLoop
    split
    · exact ⟨[], c :: buf, by simp, Or.inl (by simp)⟩
    · split
      · exact ⟨[], c :: buf, by simp, Or.inl (by simp)⟩
      · split
        · rename_i h; exact ⟨[], c :: buf, by simp, Or.inr ⟨by simp, by simpa using h⟩⟩
        · obtain ⟨r, q, h1, h2⟩ := ih (str ++ [c])
          refine ⟨c :: r, q, by simpa using h1, ?_⟩
          rcases h2 with h2 | ⟨h2, h3⟩
          · left; rw [h2]; simp
          · right; rw [h2]; exact ⟨by simp, by simpa using h3⟩

theorem sentry_good {t : TextStream} (hg : t.s.eof = false ∧ t.s.fail = false) (hs : t.skipws = true)
    (hb : t.s.buf.dropWhile isSpace ≠ []) :
    t.sentry = ({ t with s := { t.s with buf := t.s.buf.dropWhile isSpace } }, true) := by
  obtain ⟨⟨b, e, f⟩, sk, w⟩ := t
  simp only at hg hs hb
  obtain ⟨rfl, rfl⟩ := hg
  subst hs
  unfold TextStream.sentry IStream.sentry
  simp only [Bool.or_self, Bool.false_eq_true, if_false, if_true]
  rw [if_neg (by simpa using hb)]

/-- C66: `stream >> str` on a good stream with `skipws` in which something other than
whitespace is left: `str` becomes the first word, cut off after `width` characters if the
width is positive (and after as many characters as a string can have); the characters after
that stay in the stream; the width is reset; the stream does not fail. -/
theorem C66_read {maxWidth : Int} (hm : 1 ≤ maxWidth) {oom : Nat → Bool} (ho : ∀ n, oom n = false) (old : List Int)
    {t : TextStream} (hg : t.s.eof = false ∧ t.s.fail = false) (hs : t.skipws = true)
    (hb : t.s.buf.dropWhile isSpace ≠ []) :
    ∃ str rest, readString maxWidth oom old t = .ok (str, { t with s := { t.s with buf := rest }, width := 0 }) ∧
      str = (firstWord (t.s.buf.dropWhile isSpace)).take (limit maxWidth t.width) ∧
      str ++ rest = t.s.buf.dropWhile isSpace ∧ str ≠ [] := by
  obtain ⟨m1, m2⟩ := maxCharacters_eq (width := t.width) hm
  have hne : (firstWord (t.s.buf.dropWhile isSpace)).take (limit maxWidth t.width) ≠ [] := by
    cases hd : t.s.buf.dropWhile isSpace with
    | nil => exact absurd hd hb
    | cons c r =>
      have hc : isSpace c = false := by
        have := List.head?_dropWhile_not isSpace t.s.buf
        rw [hd] at this
        simpa using this
      unfold firstWord
      rw [List.takeWhile_cons_of_pos (by simp [hc])]
      intro h
      have := congrArg List.length h
      simp at this
      omega
  refine ⟨_, (t.s.buf.dropWhile isSpace).drop
    ((firstWord (t.s.buf.dropWhile isSpace)).take (limit maxWidth t.width)).length, ?_, rfl, ?_, hne⟩
  · unfold readString
    rw [sentry_good hg hs hb]
    simp only [Bool.not_true, Bool.false_eq_true, if_false]
    rw [m1, readLoop_ok (fun n _ => ho n) _ [] (by simp)]
    simp only [List.length_nil, Nat.sub_zero, List.nil_append]
    have : ((firstWord (t.s.buf.dropWhile isSpace)).take (limit maxWidth t.width)).isEmpty = false := by
      simpa using hne
    rw [this, Bool.or_false]
  · have hp : (firstWord (t.s.buf.dropWhile isSpace)).take (limit maxWidth t.width) <+: t.s.buf.dropWhile isSpace :=
      (List.take_prefix _ _).trans (List.takeWhile_prefix _)
    obtain ⟨q, hq⟩ := hp
    generalize (firstWord (t.s.buf.dropWhile isSpace)).take (limit maxWidth t.width) = w at hq ⊢
    rw [← hq]
    simp

/-- C66: if only whitespace is left, or the stream was not good, the string is unchanged and
the stream fails; nothing else happens. -/
theorem C66_read_nothing {maxWidth : Int} {oom : Nat → Bool} (old : List Int) {t : TextStream}
    (h : t.s.eof = true ∨ t.s.fail = true ∨ (t.skipws = true ∧ Blank t.s.buf)) :
    ∃ t', readString maxWidth oom old t = .ok (old, t') ∧ t'.s.fail = true ∧ t'.width = t.width ∧
      t'.skipws = t.skipws := by
  have hsen : ∃ t', t.sentry = (t', false) ∧ t'.s.fail = true ∧ t'.width = t.width ∧ t'.skipws = t.skipws := by
    unfold TextStream.sentry
    by_cases hg : t.s.eof = true ∨ t.s.fail = true
    · rw [if_pos (by rcases hg with h | h <;> simp [h])]
      exact ⟨_, rfl, rfl, rfl, rfl⟩
    · rw [if_neg (by simpa using hg)]
      have hb : t.skipws = true ∧ Blank t.s.buf := by
        rcases h with h | h | h
        · exact absurd (Or.inl h) hg
        · exact absurd (Or.inr h) hg
        · exact h
      rw [if_pos hb.1]
      have hd : t.s.buf.dropWhile isSpace = [] := by
        have := dropWhile_append_blank (rest := []) hb.2
        simpa using this
      have : t.s.sentry = (⟨[], true, true⟩, false) := by
        unfold IStream.sentry
        rw [if_neg (by simpa using hg)]
        simp [hd]
      rw [this]
      exact ⟨_, rfl, rfl, rfl, rfl⟩
  obtain ⟨t', h1, h2, h3, h4⟩ := hsen
  refine ⟨t', ?_, h2, h3, h4⟩
  unfold readString
  rw [h1]
  rfl

/-- C66: no character is lost, whatever happens, also if memory runs out while reading: what
is in the string followed by what is left in the stream is the input after the skipped
whitespace. -/
theorem C66_no_loss {maxWidth : Int} {oom : Nat → Bool} (old : List Int) {t : TextStream}
    (hg : t.s.eof = false ∧ t.s.fail = false) (hs : t.skipws = true) (hb : t.s.buf.dropWhile isSpace ≠ []) :
    ∃ str t', (readString maxWidth oom old t = .ok (str, t') ∨
      (readString maxWidth oom old t = .exn (str, t') ∧ oom str.length = true)) ∧
      str ++ t'.s.buf = t.s.buf.dropWhile isSpace := by
  unfold readString
  rw [sentry_good hg hs hb]
  simp only [Bool.not_true, Bool.false_eq_true, if_false]
  obtain ⟨r, q, h1, h2⟩ := readLoop_any (M := maxCharacters maxWidth t.width) (oom := oom) (t.s.buf.dropWhile isSpace) []
  simp only [List.nil_append] at h1 h2
  rcases h2 with h2 | ⟨h2, h3⟩
  · rw [h2]
    exact ⟨r, _, Or.inl rfl, h1⟩
  · rw [h2]
    exact ⟨r, _, Or.inr ⟨rfl, h3⟩, h1⟩

/-- C66: round trip. Any number of words (not empty, no whitespace, not longer than a string
can be), each written with `<<` and followed by whitespace, is read back word by word. -/
theorem C66_round_trip {maxWidth : Int} (hm : 1 ≤ maxWidth) {oom : Nat → Bool} (ho : ∀ n, oom n = false)
    {words seps : List (List Int)} (hl : seps.length = words.length)
    (hw : ∀ w ∈ words, w ≠ [] ∧ (∀ c ∈ w, isSpace c = false) ∧ (w.length : Int) ≤ maxWidth)
    (hs : ∀ q ∈ seps, Blank q ∧ q ≠ []) {ws : List Int} (hws : Blank ws) :
    ∃ t, readStrings maxWidth oom words.length ⟨⟨ws ++ joined words seps, false, false⟩, true, 0⟩ = .ok (words, t) ∧
      t.s.fail = false := by
  induction words generalizing seps ws with
  | nil => exact ⟨_, rfl, rfl⟩
  | cons w words ih =>
    cases seps with
    | nil => simp at hl
    | cons q seps =>
    obtain ⟨w1, w2, w3⟩ := hw w (by simp)
    obtain ⟨q1, q2⟩ := hs q (by simp)
    have hd : (ws ++ joined (w :: words) (q :: seps)).dropWhile isSpace = w ++ (q ++ joined words seps) := by
      rw [dropWhile_append_blank hws, joined]
      cases w with
      | nil => exact absurd rfl w1
      | cons c w => rw [List.cons_append, List.dropWhile_cons_of_neg (by simp [w2 c (by simp)])]
    have hword : firstWord (w ++ (q ++ joined words seps)) = w := by
      unfold firstWord
      rw [List.takeWhile_append_of_pos (by intro c hc; simp [w2 c hc])]
      cases q with
      | nil => exact absurd rfl q2
      | cons c q => rw [List.cons_append, List.takeWhile_cons_of_neg (by simp [q1 c (by simp)])]; simp
    obtain ⟨str, rest, r1, r2, r3, _⟩ := C66_read (maxWidth := maxWidth) hm ho []
      (t := ⟨⟨ws ++ joined (w :: words) (q :: seps), false, false⟩, true, 0⟩) ⟨rfl, rfl⟩ rfl
      (by simp only [hd]; intro h; exact w1 (List.append_eq_nil_iff.mp h).1)
    simp only [hd, hword] at r2 r3
    have hlim : limit maxWidth 0 = maxWidth.toNat := by unfold limit; simp
    rw [hlim, List.take_of_length_le (by omega)] at r2
    subst r2
    have r3' : rest = q ++ joined words seps := List.append_cancel_left r3
    subst r3'
    obtain ⟨t, t1, t2⟩ := ih (seps := seps) (by simpa using hl) (fun v hv => hw v (by simp [hv]))
      (fun v hv => hs v (by simp [hv])) q1
    refine ⟨t, ?_, t2⟩
    rw [List.length_cons, readStrings, r1]
    simp only
    rw [t1]

/-- C66: reading the last word does not set `eofbit`, unlike reading into a `std::string`:
the loop goes over the stream buffer, which does not know about the bits of the stream. -/
theorem C66_eof {maxWidth : Int} (hm : 1 ≤ maxWidth) {oom : Nat → Bool} (ho : ∀ n, oom n = false) (old w : List Int)
    (w1 : w ≠ []) (w2 : ∀ c ∈ w, isSpace c = false) (w3 : (w.length : Int) ≤ maxWidth) :
    readString maxWidth oom old ⟨⟨w, false, false⟩, true, 0⟩ = .ok (w, ⟨⟨[], false, false⟩, true, 0⟩) := by
  have hd : w.dropWhile isSpace = w := by
    cases w with
    | nil => rfl
    | cons c w => rw [List.dropWhile_cons_of_neg (by simp [w2 c (by simp)])]
  obtain ⟨str, rest, r1, r2, r3, _⟩ := C66_read (maxWidth := maxWidth) hm ho old
    (t := ⟨⟨w, false, false⟩, true, 0⟩) ⟨rfl, rfl⟩ rfl (by simpa [hd] using w1)
  have hword : firstWord w = w := by
    unfold firstWord
    have := List.takeWhile_append_of_pos (p := fun c => !isSpace c) (l₁ := w) (l₂ := []) (by intro c hc; simp [w2 c hc])
    simpa using this
  have hlim : limit maxWidth 0 = maxWidth.toNat := by unfold limit; simp
  simp only [hd, hword, hlim] at r2 r3
  rw [List.take_of_length_le (by omega)] at r2
  subst r2
  have : rest = [] := by simpa using r3
  subst this
  exact r1

/-- `ab cd` with width 1: one character, the rest stays. -/
example : readString 1000 (fun _ => false) [120] ⟨⟨[32, 97, 98, 32, 99], false, false⟩, true, 1⟩ =
    .ok ([97], ⟨⟨[98, 32, 99], false, false⟩, true, 0⟩) := by decide +kernel

/-- The hypotheses of `C66_round_trip` are met by two words. -/
example : readStrings 1000 (fun _ => false) 2 ⟨⟨[32] ++ joined [[97, 98], [99]] [[32, 10], [32]], false, false⟩, true, 0⟩ =
    .ok ([[97, 98], [99]], ⟨⟨[32], false, false⟩, true, 0⟩) := by decide +kernel

end Verif.Containers
