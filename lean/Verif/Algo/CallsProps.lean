import Verif.Algo.Calls

/-!
# How algorithms call the function objects they are given (C77): the claims

Every theorem is about every function object: it may have state, contradict itself and throw at any call.
-/

namespace Verif.Algo

open Prog

variable {α β S Q R τ : Type}

/-- Each use of `p` is one call; `neg` says that the answer is negated (`std::not_fn`). -/
def Calls1 (p : α → Prog S Q Bool) (s : S) (q : α → Q) (neg : Bool) : Prop := ∀ x, p x = Ask.ask s (q x) fun b => .done (some (b != neg))

theorem calls1_call (s : S) (q : α → Q) : Calls1 (fun x => call s (q x)) s q false := fun x => by
  simp only [call, Bool.bne_false]; rfl

theorem calls1_not {p : α → Prog S Q Bool} {s : S} {q : α → Q} (h : Calls1 p s q false) : Calls1 (notFn p) s q true := fun x => by
  simp only [notFn, h x]
  show Ask.bind _ _ = _
  simp only [Ask.bind, Bool.bne_false, Bool.bne_true]
  rfl

variable {can : Q → Bool → Prop} {snap : List (Q × Bool) → S → Prop} {h : List (Q × Bool)}

theorem safe_call1 {p : α → Prog S Q Bool} {s : S} {q : α → Q} {neg : Bool} (hp : Calls1 p s q neg) {x : α} {g : Bool → Prog S Q R}
    {post : List (Q × Bool) → R → Prop} (hs : snap h s) (H : ∀ b, can (q x) b → Safe can snap post (h ++ [(q x, b)]) (g (b != neg))) :
    Safe can snap post h (p x >>= g) := by
  refine Safe.bind ?_
  rw [hp x]
  exact ⟨hs, fun b hb => ⟨_, rfl, H b hb⟩⟩

theorem safe_read {x : Option α} {v : α} (hx : x = some v) {g : α → Prog S Q R} {post : List (Q × Bool) → R → Prop}
    (H : Safe can snap post h (g v)) : Safe can snap post h (lift x >>= g) := by
  subst hx; exact Safe.bind ⟨v, rfl, H⟩

/-! ## Linear searches -/

/-- The calls of a search through `xs` that ends at position `k`: the elements before it with the one answer, then the element at `k` (if
there is one) with the other. -/
def searched (q : α → Q) (neg : Bool) (xs : List α) (k : Nat) : List (Q × Bool) :=
  (xs.take k).map (fun x => (q x, neg)) ++ (xs[k]?.toList.map fun x => (q x, !neg))

theorem findIfLoopA_safe {m : Mem α} {p : α → Prog S Q Bool} {s : S} {q : α → Q} {neg : Bool} (hp : Calls1 p s q neg) :
    ∀ {xs : List α} {first : Nat} {h : List (Q × Bool)}, m.Seg first xs →
      (∀ k, k < xs.length → snap (h ++ (xs.take k).map fun x => (q x, neg)) s) →
      Safe can snap (fun h' r => ∃ k, k ≤ xs.length ∧ r = first + k ∧ h' = h ++ searched q neg xs k) h (findIfLoopA m p xs.length first)
  | [], first, h, _, _ => Safe.pure ⟨0, Nat.le_refl _, rfl, by simp [searched]⟩
  | x :: xs, first, h, hx, hs => by
    obtain ⟨h0, h1⟩ := Mem.seg_cons.1 hx
    refine safe_read h0 (safe_call1 hp (by simpa using hs 0 (by simp)) fun b _ => ?_)
    by_cases hb : (b != neg) = true
    · rw [if_pos hb]
      refine Safe.pure ⟨0, by simp, rfl, ?_⟩
      have : b = !neg := by cases b <;> cases neg <;> simp_all
      simp [searched, this]
    · rw [if_neg hb]
      have hbn : b = neg := by cases b <;> cases neg <;> simp_all
      subst hbn
      refine Safe.mono (findIfLoopA_safe hp h1 fun k hk => ?_) ?_
      · simpa using hs (k + 1) (by simpa using hk)
      · rintro h' r ⟨k, hk, rfl, rfl⟩
        refine ⟨k + 1, by simpa using hk, by omega, by simp [searched]⟩

theorem findIfA_safe {m : Mem α} {p : α → Prog S Q Bool} {s : S} {q : α → Q} {neg : Bool} (hp : Calls1 p s q neg) {xs : List α} {first : Nat}
    (hx : m.Seg first xs) (hs : ∀ k, k < xs.length → snap (h ++ (xs.take k).map fun x => (q x, neg)) s) :
    Safe can snap (fun h' r => ∃ k, k ≤ xs.length ∧ r = first + k ∧ h' = h ++ searched q neg xs k) h (findIfA m p first (first + xs.length)) := by
  rw [findIfA, if_pos (by omega), Nat.add_sub_cancel_left]
  exact findIfLoopA_safe hp hx hs

/-- C77, `find_if`: the predicate is called for the elements in order and for none after the first for which it says yes; the result is the
position of that element, or the end. If it throws, it has said no for all elements before. -/
theorem C77_find_if {m : Mem α} {xs : List α} {first : Nat} (hx : m.Seg first xs) :
    Always (fun c s => s = m ∧ ∃ k, k < xs.length ∧ c = (xs.take k).map (·, false))
      (fun c r => ∃ k, k ≤ xs.length ∧ r = first + k ∧ c = (xs.take k).map (·, false) ++ (xs[k]?.toList.map (·, true)))
      (findIfA m (call m) first (first + xs.length)) :=
  Safe.always (findIfA_safe (snap := fun c s => s = m ∧ ∃ k, k < xs.length ∧ c = (xs.take k).map (·, false)) (calls1_call m id) hx
    (fun k hk => ⟨rfl, k, hk, by simp⟩)) (fun _ _ a => a) fun _ _ ⟨k, h1, h2, h3⟩ => ⟨k, h1, h2, by simpa [searched] using h3⟩

/-- C77, `find_if_not`: the same with the answers exchanged. -/
theorem C77_find_if_not {m : Mem α} {xs : List α} {first : Nat} (hx : m.Seg first xs) :
    Always (fun c s => s = m ∧ ∃ k, k < xs.length ∧ c = (xs.take k).map (·, true))
      (fun c r => ∃ k, k ≤ xs.length ∧ r = first + k ∧ c = (xs.take k).map (·, true) ++ (xs[k]?.toList.map (·, false)))
      (findIfNotA m (call m) first (first + xs.length)) :=
  Safe.always (findIfA_safe (snap := fun c s => s = m ∧ ∃ k, k < xs.length ∧ c = (xs.take k).map (·, true)) (calls1_not (calls1_call m id)) hx
    (fun k hk => ⟨rfl, k, hk, by simp⟩)) (fun _ _ a => a) fun _ _ ⟨k, h1, h2, h3⟩ => ⟨k, h1, h2, by simpa [searched] using h3⟩

theorem findLastIfLoopA_safe {m : Mem α} {p : α → Prog S Q Bool} {s : S} {q : α → Q} {neg : Bool} (hp : Calls1 p s q neg) {xs : List α} {first last : Nat}
    (hx : m.Seg first xs) : ∀ (n : Nat) {h : List (Q × Bool)}, n ≤ xs.length →
      (∀ k, k < n → snap (h ++ ((xs.take n).reverse.take k).map fun x => (q x, neg)) s) →
      Safe can snap (fun h' r => ∃ k, k ≤ n ∧ (k < n → r = first + (n - 1 - k)) ∧ (k = n → r = last) ∧ h' = h ++ searched q neg (xs.take n).reverse k) h
        (findLastIfLoopA m p first last n)
  | 0, h, _, _ => Safe.pure ⟨0, Nat.le_refl _, fun h => by omega, fun _ => rfl, by simp [searched]⟩
  | n + 1, h, hn, hs => by
    have e : (xs.take (n + 1)).reverse = xs[n] :: (xs.take n).reverse := by
      rw [List.take_succ_eq_append_getElem (by omega)]; simp
    rw [e] at hs ⊢
    refine safe_read (hx n (by omega)) (safe_call1 hp (by simpa using hs 0 (by simp)) fun b _ => ?_)
    by_cases hb : (b != neg) = true
    · rw [if_pos hb]
      refine Safe.pure ⟨0, by simp, fun _ => by simp, fun h => by omega, ?_⟩
      have : b = !neg := by cases b <;> cases neg <;> simp_all
      simp [searched, this]
    · rw [if_neg hb]
      have hbn : b = neg := by cases b <;> cases neg <;> simp_all
      subst hbn
      refine Safe.mono (findLastIfLoopA_safe hp hx n (by omega) fun k hk => ?_) ?_
      · simpa using hs (k + 1) (by omega)
      · rintro h' r ⟨k, hk, h1, h2, rfl⟩
        exact ⟨k + 1, by omega, fun hk => by rw [h1 (by omega)]; omega, fun hk => h2 (by omega), by simp [searched]⟩

/-- C77, `find_last_if`: the predicate is called for the elements from the last one backwards and for none before the one for which it says
yes; the result is the position of that element, or the end. -/
theorem C77_find_last_if {m : Mem α} {xs : List α} {first : Nat} (hx : m.Seg first xs) :
    Always (fun c s => s = m ∧ ∃ k, k < xs.length ∧ c = (xs.reverse.take k).map (·, false))
      (fun c r => ∃ k, k ≤ xs.length ∧ r = (if k = xs.length then first + xs.length else first + (xs.length - 1 - k)) ∧
        c = (xs.reverse.take k).map (·, false) ++ (xs.reverse[k]?.toList.map (·, true)))
      (findLastIfA m (call m) first (first + xs.length)) := by
  rw [findLastIfA, if_pos (by omega), Nat.add_sub_cancel_left]
  refine Safe.always (findLastIfLoopA_safe (snap := fun c s => s = m ∧ ∃ k, k < xs.length ∧ c = (xs.reverse.take k).map (·, false)) (calls1_call m id) hx
    xs.length (Nat.le_refl _) (fun k hk => ⟨rfl, k, hk, by simp⟩)) (fun _ _ a => a) ?_
  rintro _ _ ⟨k, h1, h2, h3, h4⟩
  refine ⟨k, h1, ?_, by simpa [searched] using h4⟩
  split
  · rename_i hk; rw [h3 hk]
  · exact h2 (by omega)

/-- C77, `all`: stops at the first element for which the predicate says no. -/
theorem C77_all {m : Mem α} {xs : List α} {first : Nat} (hx : m.Seg first xs) :
    Always (fun c s => s = m ∧ ∃ k, k < xs.length ∧ c = (xs.take k).map (·, true))
      (fun c r => ∃ k, k ≤ xs.length ∧ (r = true ↔ k = xs.length) ∧ c = (xs.take k).map (·, true) ++ (xs[k]?.toList.map (·, false)))
      (allA m (call m) first (first + xs.length)) :=
  Safe.always (snap := fun c s => s = m ∧ ∃ k, k < xs.length ∧ c = (xs.take k).map (·, true)) (Safe.bind (Safe.mono (findIfA_safe (calls1_not (calls1_call m id)) hx
    (fun k hk => ⟨rfl, k, hk, by simp⟩)) fun _ _ ⟨k, h1, h2, h3⟩ => Safe.pure ⟨k, h1, by subst h2; simp, by simpa [searched] using h3⟩)) (fun _ _ a => a) (fun _ _ a => a)

/-- C77, `any`: stops at the first element for which the predicate says yes. -/
theorem C77_any {m : Mem α} {xs : List α} {first : Nat} (hx : m.Seg first xs) :
    Always (fun c s => s = m ∧ ∃ k, k < xs.length ∧ c = (xs.take k).map (·, false))
      (fun c r => ∃ k, k ≤ xs.length ∧ (r = true ↔ k < xs.length) ∧ c = (xs.take k).map (·, false) ++ (xs[k]?.toList.map (·, true)))
      (anyA m (call m) first (first + xs.length)) :=
  Safe.always (snap := fun c s => s = m ∧ ∃ k, k < xs.length ∧ c = (xs.take k).map (·, false)) (Safe.bind (Safe.mono (findIfA_safe (calls1_call m id) hx
    (fun k hk => ⟨rfl, k, hk, by simp⟩)) fun _ _ ⟨k, h1, h2, h3⟩ => Safe.pure ⟨k, h1, by subst h2; simp; omega, by simpa [searched] using h3⟩)) (fun _ _ a => a) (fun _ _ a => a)

/-- C77, `none`: stops at the first element for which the predicate says yes. -/
theorem C77_none {m : Mem α} {xs : List α} {first : Nat} (hx : m.Seg first xs) :
    Always (fun c s => s = m ∧ ∃ k, k < xs.length ∧ c = (xs.take k).map (·, false))
      (fun c r => ∃ k, k ≤ xs.length ∧ (r = true ↔ k = xs.length) ∧ c = (xs.take k).map (·, false) ++ (xs[k]?.toList.map (·, true)))
      (noneA m (call m) first (first + xs.length)) :=
  Safe.always (snap := fun c s => s = m ∧ ∃ k, k < xs.length ∧ c = (xs.take k).map (·, false)) (Safe.bind (Safe.mono (findIfA_safe (calls1_call m id) hx
    (fun k hk => ⟨rfl, k, hk, by simp⟩)) fun _ _ ⟨k, h1, h2, h3⟩ => Safe.pure ⟨k, h1, by subst h2; simp, by simpa [searched] using h3⟩)) (fun _ _ a => a) (fun _ _ a => a)

/-! ## Walks over the whole range -/

theorem countIfLoopA_safe {m : Mem α} {p : α → Prog S Q Bool} {s : S} {q : α → Q} (hp : Calls1 p s q false) :
    ∀ {xs : List α} {first sum : Nat} {h : List (Q × Bool)}, m.Seg first xs →
      (∀ c, c.map Prod.fst <+: xs.map q → c.length < xs.length → snap (h ++ c) s) →
      Safe can snap (fun h' r => ∃ c, h' = h ++ c ∧ c.map Prod.fst = xs.map q ∧ r = sum + c.countP (·.2)) h (countIfLoopA m p xs.length first sum)
  | [], first, sum, h, _, _ => Safe.pure ⟨[], by simp, rfl, rfl⟩
  | x :: xs, first, sum, h, hx, hs => by
    obtain ⟨h0, h1⟩ := Mem.seg_cons.1 hx
    refine safe_read h0 (safe_call1 hp (by simpa using hs [] (by simp) (by simp)) fun b _ => ?_)
    rw [Bool.bne_false]
    refine Safe.mono (countIfLoopA_safe hp h1 fun c h2 h3 => ?_) ?_
    · simpa using hs ((q x, b) :: c) (by simpa using h2) (by simpa using h3)
    · rintro h' r ⟨c, rfl, h2, rfl⟩
      refine ⟨(q x, b) :: c, by simp, by simpa using h2, ?_⟩
      cases b <;> simp [List.countP_cons]; omega

/-- C77, `count_if`: the predicate is called exactly once for every element, in order; the result is the number of times it said yes. -/
theorem C77_count_if {m : Mem α} {xs : List α} {first : Nat} (hx : m.Seg first xs) :
    Always (fun c s => s = m ∧ c.map Prod.fst <+: xs ∧ c.length < xs.length)
      (fun c r => c.map Prod.fst = xs ∧ r = c.countP (·.2))
      (countIfA m (call m) first (first + xs.length)) := by
  rw [countIfA, if_pos (by omega), Nat.add_sub_cancel_left]
  refine Safe.always (countIfLoopA_safe (snap := fun c s => s = m ∧ c.map Prod.fst <+: xs ∧ c.length < xs.length) (calls1_call m id) hx
    (fun c h1 h2 => ⟨rfl, by simpa using h1, by simpa using h2⟩)) (fun _ _ a => a) ?_
  rintro _ _ ⟨c, h1, h2, h3⟩
  exact ⟨by simpa [h1] using h2, by simpa [h1] using h3⟩

theorem mismatchLoopA_safe {m1 : Mem α} {m2 : Mem β} {s : S} : ∀ {xs : List α} {ys : List β} {f1 f2 : Nat} {can : α × β → Bool → Prop}
    {snap : List ((α × β) × Bool) → S → Prop} {h : List ((α × β) × Bool)},
    m1.Seg f1 xs → m2.Seg f2 ys → (∀ k, k < (xs.zip ys).length → snap (h ++ ((xs.zip ys).take k).map (·, true)) s) →
    Safe can snap (fun h' r => ∃ k, k ≤ (xs.zip ys).length ∧ r = (f1 + k, f2 + k) ∧ h' = h ++ searched id true (xs.zip ys) k) h
      (mismatchLoopA m1 m2 (fun a b => call s (a, b)) xs.length ys.length f1 f2)
  | [], ys, f1, f2, can, snap, h, _, _, _ => by cases ys <;> exact Safe.pure ⟨0, by simp, rfl, by simp [searched]⟩
  | _ :: _, [], f1, f2, can, snap, h, _, _, _ => Safe.pure ⟨0, by simp, rfl, by simp [searched]⟩
  | x :: xs, y :: ys, f1, f2, can, snap, h, hx, hy, hs => by
    obtain ⟨h0, h1⟩ := Mem.seg_cons.1 hx
    obtain ⟨g0, g1⟩ := Mem.seg_cons.1 hy
    refine safe_read h0 (safe_read g0 (Safe.bind (Safe.call (by simpa using hs 0 (by simp)) fun b _ => ?_)))
    cases b with
    | true =>
      refine Safe.mono (mismatchLoopA_safe h1 g1 fun k hk => ?_) ?_
      · simpa using hs (k + 1) (by simpa using hk)
      · rintro h' r ⟨k, hk, rfl, rfl⟩
        exact ⟨k + 1, by simpa using hk, by simp only [Prod.mk.injEq]; omega, by simp [searched]⟩
    | false => exact Safe.pure ⟨0, by simp, rfl, by simp [searched]⟩

/-- C77, `mismatch` (also in other ranges, `starts_with`, `equal`): the predicate is called for the pairs of elements in order and for none
after the first pair for which it says no. -/
theorem C77_mismatch {m1 : Mem α} {m2 : Mem β} {xs : List α} {ys : List β} {f1 f2 : Nat} (hx : m1.Seg f1 xs) (hy : m2.Seg f2 ys) :
    Always (fun c s => s = (m1, m2) ∧ ∃ k, k < min xs.length ys.length ∧ c = ((xs.zip ys).take k).map (·, true))
      (fun c r => ∃ k, k ≤ min xs.length ys.length ∧ r = (f1 + k, f2 + k) ∧
        c = ((xs.zip ys).take k).map (·, true) ++ ((xs.zip ys)[k]?.toList.map (·, false)))
      (mismatchA m1 m2 (fun a b => call (m1, m2) (a, b)) f1 (f1 + xs.length) f2 (f2 + ys.length)) := by
  rw [mismatchA, if_pos (by omega), Nat.add_sub_cancel_left, Nat.add_sub_cancel_left]
  refine Safe.always (mismatchLoopA_safe (snap := fun c s => s = (m1, m2) ∧ ∃ k, k < min xs.length ys.length ∧ c = ((xs.zip ys).take k).map (·, true)) hx hy
    (fun k hk => ⟨rfl, k, by simpa using hk, by simp⟩)) (fun _ _ a => a) ?_
  rintro _ _ ⟨k, h1, h2, h3⟩
  exact ⟨k, by simpa using h1, h2, by simpa [searched] using h3⟩

/-- Each use of `p` is one call, with two arguments. -/
def Calls2 (p : α → α → Prog S Q Bool) (s : S) (q : α → α → Q) (neg : Bool) : Prop := ∀ x y, p x y = Ask.ask s (q x y) fun b => .done (some (b != neg))

theorem calls2_call (s : S) : Calls2 (fun x y => call s (x, y)) s (fun x y : α => (x, y)) false := fun x y => by
  simp only [call, Bool.bne_false]; rfl

theorem calls2_max (s : S) : Calls2 (fun lhs rhs : α => notFn (fun x => call s (x, lhs)) rhs) s (fun x y => (y, x)) true := fun x y =>
  calls1_not (calls1_call s fun z => (z, x)) y

/-- The calls `c` compare the elements `ys` in order with elements from `zs`. -/
def ComparesAll (q : α → α → Q) (zs ys : List α) (c : List (Q × Bool)) : Prop := List.Forall₂ (fun y e => ∃ z ∈ zs, e.1 = q y z) ys c

theorem minElementLoopA_safe {m : Mem α} {lt : α → α → Prog S Q Bool} {s : S} {q : α → α → Q} {neg : Bool} (hp : Calls2 lt s q neg) {zs : List α} :
    ∀ {ys : List α} {smallest it : Nat} {v : α} {h : List (Q × Bool)}, m.Seg it ys → m smallest = some v → v ∈ zs → (∀ y ∈ ys, y ∈ zs) →
      (∀ c, c.length < ys.length → ComparesAll q zs (ys.take c.length) c → snap (h ++ c) s) →
      Safe can snap (fun h' r => ∃ c, h' = h ++ c ∧ ComparesAll q zs ys c ∧
        ((r = smallest ∧ ∀ e ∈ c, e.2 = neg) ∨ ∃ k e, k < ys.length ∧ r = it + k ∧ c[k]? = some e ∧ e.2 = !neg ∧ ∀ e ∈ c.drop (k + 1), e.2 = neg)) h
        (minElementLoopA m lt ys.length smallest it)
  | [], smallest, it, v, h, _, _, _, _, _ => Safe.pure ⟨[], by simp, .nil, .inl ⟨rfl, by simp⟩⟩
  | y :: ys, smallest, it, v, h, hx, hv, hvz, hyz, hs => by
    obtain ⟨h0, h1⟩ := Mem.seg_cons.1 hx
    have hy : y ∈ zs := hyz y (by simp)
    refine safe_read h0 (safe_read hv (Safe.bind ?_))
    rw [hp y v]
    refine ⟨by simpa using hs [] (by simp) .nil, fun b _ => ⟨_, rfl, ?_⟩⟩
    have hs' : ∀ c, c.length < ys.length → ComparesAll q zs (ys.take c.length) c → snap (h ++ [(q y v, b)] ++ c) s := fun c h2 h3 => by
      simpa using hs ((q y v, b) :: c) (by simpa using h2) (by
        rw [List.length_cons, List.take_succ_cons]
        exact List.Forall₂.cons ⟨v, hvz, rfl⟩ h3)
    show Safe can snap _ _ (minElementLoopA m lt ys.length (if (b != neg) = true then it else smallest) (it + 1))
    by_cases hb : (b != neg) = true
    · rw [if_pos hb]
      have hbn : b = !neg := by cases b <;> cases neg <;> simp_all
      refine Safe.mono (minElementLoopA_safe hp h1 h0 hy (fun z hz => hyz z (by simp [hz])) hs') ?_
      rintro h' r ⟨c, rfl, h2, h3⟩
      refine ⟨(q y v, b) :: c, by simp, .cons ⟨v, hvz, rfl⟩ h2, .inr ?_⟩
      rcases h3 with ⟨rfl, h4⟩ | ⟨k, e, h4, rfl, h5, h6, h7⟩
      · exact ⟨0, _, by simp, by simp, rfl, hbn, by simpa using h4⟩
      · exact ⟨k + 1, e, by simpa using h4, by omega, by simpa using h5, h6, by simpa using h7⟩
    · rw [if_neg hb]
      have hbn : b = neg := by cases b <;> cases neg <;> simp_all
      refine Safe.mono (minElementLoopA_safe hp h1 hv hvz (fun z hz => hyz z (by simp [hz])) hs') ?_
      rintro h' r ⟨c, rfl, h2, h3⟩
      refine ⟨(q y v, b) :: c, by simp, .cons ⟨v, hvz, rfl⟩ h2, ?_⟩
      rcases h3 with ⟨rfl, h4⟩ | ⟨k, e, h4, rfl, h5, h6, h7⟩
      · exact .inl ⟨rfl, by simpa [hbn] using h4⟩
      · exact .inr ⟨k + 1, e, by simpa using h4, by omega, by simpa using h5, h6, by simpa using h7⟩

/-- What `min_element` and `max_element` do: one call for each element but the first, in order, comparing it with some element; the
result is the last element for which the answer was `yes`, or the first element. -/
theorem minElementA_always {m : Mem α} {lt : α → α → Prog (Mem α) Q Bool} {q : α → α → Q} {neg : Bool} (hp : Calls2 lt m q neg) {xs : List α} {first : Nat}
    (hx : m.Seg first xs) :
    Always (fun c s => s = m ∧ c.length < xs.length - 1 ∧ ComparesAll q xs (xs.tail.take c.length) c)
      (fun c r => ComparesAll q xs xs.tail c ∧ ∃ k, r = first + k ∧ (k < xs.length ∨ xs = []) ∧ (∀ e ∈ c.drop k, e.2 = neg) ∧
        (0 < k → ∃ e, c[k - 1]? = some e ∧ e.2 = !neg))
      (minElementA m lt first (first + xs.length)) := by
  cases xs with
  | nil =>
    rw [minElementA, if_pos (by simp)]
    exact Safe.always (snap := fun _ _ => False) (Safe.pure ⟨.nil, 0, rfl, .inr rfl, by simp, by simp⟩) (fun _ _ a => a.elim) (fun _ _ a => a)
  | cons x xs =>
    obtain ⟨h0, h1⟩ := Mem.seg_cons.1 hx
    rw [minElementA, if_neg (by simp), if_pos (by simp), show first + (x :: xs).length - first - 1 = xs.length by simp]
    refine Safe.always (minElementLoopA_safe (snap := fun c s => s = m ∧ c.length < xs.length ∧ ComparesAll q (x :: xs) (xs.take c.length) c) hp
      (zs := x :: xs) h1 h0 (by simp) (by simp +contextual) (fun c h2 h3 => ⟨rfl, by simpa using h2, by simpa using h3⟩)) ?_ ?_
    · rintro c s ⟨a1, a2, a3⟩; exact ⟨a1, by simpa using a2, by simpa using a3⟩
    · rintro h' r ⟨c, rfl, h2, h3⟩
      refine ⟨by simpa using h2, ?_⟩
      rcases h3 with ⟨rfl, h4⟩ | ⟨k, e, h4, rfl, h5, h6, h7⟩
      · exact ⟨0, rfl, .inl (by simp), by simpa using h4, by simp⟩
      · exact ⟨k + 1, by omega, .inl (by simpa using h4), h7, fun _ => ⟨e, by simpa using h5, h6⟩⟩

/-- C77, `min_element`: see `minElementA_always`. -/
theorem C77_min_element {m : Mem α} {xs : List α} {first : Nat} (hx : m.Seg first xs) :
    Always (fun c s => s = m ∧ c.length < xs.length - 1 ∧ ComparesAll (·, ·) xs (xs.tail.take c.length) c)
      (fun c r => ComparesAll (·, ·) xs xs.tail c ∧ ∃ k, r = first + k ∧ (k < xs.length ∨ xs = []) ∧ (∀ e ∈ c.drop k, e.2 = false) ∧
        (0 < k → ∃ e, c[k - 1]? = some e ∧ e.2 = true))
      (minElementA m (fun x y => call m (x, y)) first (first + xs.length)) := minElementA_always (calls2_call m) hx

/-- C77, `max_element`: the arguments and the answers are exchanged, so that of equal elements the last one is found. -/
theorem C77_max_element {m : Mem α} {xs : List α} {first : Nat} (hx : m.Seg first xs) :
    Always (fun c s => s = m ∧ c.length < xs.length - 1 ∧ ComparesAll (fun y z => (z, y)) xs (xs.tail.take c.length) c)
      (fun c r => ComparesAll (fun y z => (z, y)) xs xs.tail c ∧ ∃ k, r = first + k ∧ (k < xs.length ∨ xs = []) ∧ (∀ e ∈ c.drop k, e.2 = true) ∧
        (0 < k → ∃ e, c[k - 1]? = some e ∧ e.2 = false))
      (maxElementA m (fun x y => call m (x, y)) first (first + xs.length)) := minElementA_always (calls2_max m) hx

theorem isSortedLoopA_safe {m : Mem α} {s : S} : ∀ {xs : List α} {x : α} {first : Nat} {can : α × α → Bool → Prop} {snap : List ((α × α) × Bool) → S → Prop}
    {h : List ((α × α) × Bool)}, m.Seg first (x :: xs) → (∀ k, k < xs.length → snap (h ++ ((xs.zip (x :: xs)).take k).map (·, false)) s) →
    Safe can snap (fun h' r => ∃ k, k ≤ xs.length ∧ (r = true ↔ k = xs.length) ∧ h' = h ++ searched id false (xs.zip (x :: xs)) k) h
      (isSortedLoopA m (fun a b => call s (a, b)) xs.length first (first + 1))
  | [], x, first, can, snap, h, _, _ => Safe.pure ⟨0, by simp, by simp, by simp [searched]⟩
  | y :: xs, x, first, can, snap, h, hx, hs => by
    obtain ⟨h0, h1⟩ := Mem.seg_cons.1 hx
    obtain ⟨h2, -⟩ := Mem.seg_cons.1 h1
    refine safe_read h2 (safe_read h0 (Safe.bind (Safe.call (by simpa using hs 0 (by simp)) fun b _ => ?_)))
    cases b with
    | true => exact Safe.pure ⟨0, by simp, by simp, by simp [searched]⟩
    | false =>
      refine Safe.mono (isSortedLoopA_safe h1 fun k hk => ?_) ?_
      · simpa using hs (k + 1) (by simpa using hk)
      · rintro h' r ⟨k, hk, e, rfl⟩
        exact ⟨k + 1, by simpa using hk, by simpa using e, by simp [searched]⟩

/-- C77, `is_sorted`: the comparison is called for each element and the one before it, in order, up to the first pair for which it says
yes. -/
theorem C77_is_sorted {m : Mem α} {xs : List α} {first : Nat} (hx : m.Seg first xs) :
    Always (fun c s => s = m ∧ ∃ k, k < xs.length - 1 ∧ c = ((xs.tail.zip xs).take k).map (·, false))
      (fun c r => ∃ k, k ≤ xs.length - 1 ∧ (r = true ↔ k = xs.length - 1) ∧
        c = ((xs.tail.zip xs).take k).map (·, false) ++ ((xs.tail.zip xs)[k]?.toList.map (·, true)))
      (isSortedA m (fun a b => call m (a, b)) first xs.length) := by
  cases xs with
  | nil => exact Safe.always (snap := fun _ _ => False) (Safe.pure ⟨0, by simp, by simp, by simp⟩) (fun _ _ a => a.elim) (fun _ _ a => a)
  | cons x xs =>
    rw [isSortedA, if_neg (by simp)]
    refine Safe.always (isSortedLoopA_safe (snap := fun c s => s = m ∧ ∃ k, k < xs.length ∧ c = ((xs.zip (x :: xs)).take k).map (·, false)) hx
      (fun k hk => ⟨rfl, k, hk, by simp⟩)) (fun _ _ a => a) ?_
    rintro _ _ ⟨k, h1, h2, h3⟩
    exact ⟨k, by simpa using h1, by simpa using h2, by simpa [searched] using h3⟩

/-- C77, `is_partitioned`: every element is examined at most once, but the first element for which the predicate says no at first, which is
examined twice. -/
theorem C77_is_partitioned {m : Mem α} {xs : List α} {first : Nat} (hx : m.Seg first xs) :
    Always (fun c s => s = m ∧ c.length ≤ xs.length) (fun c _ => c.length ≤ xs.length + 1 ∧ ∀ e ∈ c, e.1 ∈ xs)
      (isPartitionedA m (call m) first (first + xs.length)) := by
  refine Safe.always (snap := fun c s => s = m ∧ c.length ≤ xs.length) (Safe.bind (Safe.mono (findIfA_safe (calls1_not (calls1_call m id)) hx ?_) ?_))
    (fun _ _ a => a) (fun _ _ a => a)
  · intro k hk; exact ⟨rfl, by simp⟩
  · rintro h' r ⟨k, hk, rfl, rfl⟩
    refine Safe.bind ?_
    have hd : m.Seg (first + k) (xs.drop k) := fun i hi => by
      have := hx (k + i) (by simp at hi; omega)
      rw [List.getElem_drop, Nat.add_assoc]; exact this
    have hl : (xs.drop k).length = xs.length - k := by simp
    have hlen : ([] ++ searched id true xs k : List (α × Bool)).length = k + (if k < xs.length then 1 else 0) := by
      simp only [searched, List.nil_append, List.length_append, List.length_map, List.length_take]
      split
      · rw [List.getElem?_eq_getElem (by omega)]; simp; omega
      · rw [List.getElem?_eq_none (by omega)]; simp; omega
    have hmem : ∀ e ∈ ([] ++ searched id true xs k : List (α × Bool)), e.1 ∈ xs := by
      simp only [searched, List.nil_append, List.mem_append, List.mem_map]
      rintro e (⟨x, h1, rfl⟩ | ⟨x, h1, rfl⟩)
      · exact List.mem_of_mem_take h1
      · simp only [Option.mem_toList] at h1; exact List.mem_of_getElem? h1
    have := findIfA_safe (can := fun _ _ => True) (snap := fun c s => s = m ∧ c.length ≤ xs.length) (calls1_call m id) hd
      (h := [] ++ searched id true xs k) (fun j hj => ⟨rfl, by
        rw [List.length_append, hlen]
        simp only [List.length_map, List.length_take, List.length_drop] at hj ⊢
        split <;> omega⟩)
    rw [hl, show first + k + (xs.length - k) = first + xs.length by omega] at this
    refine Safe.mono this ?_
    rintro h' r ⟨j, hj, rfl, rfl⟩
    refine Safe.pure ⟨?_, ?_⟩
    · rw [List.length_append, hlen]
      simp only [searched, List.length_append, List.length_map, List.length_take, List.length_drop]
      have h2 : ((xs.drop k)[j]?.toList).length ≤ if k + j < xs.length then 1 else 0 := by
        rw [List.getElem?_drop]
        split
        · rw [List.getElem?_eq_getElem (by omega)]; simp
        · rw [List.getElem?_eq_none (by omega)]; simp
      split at h2 <;> split <;> omega
    · intro e he
      rcases List.mem_append.1 he with he | he
      · exact hmem e he
      · simp only [searched, List.mem_append, List.mem_map] at he
        rcases he with ⟨x, h1, rfl⟩ | ⟨x, h1, rfl⟩
        · exact List.mem_of_mem_drop (List.mem_of_mem_take h1)
        · simp only [Option.mem_toList] at h1; exact List.mem_of_mem_drop (List.mem_of_getElem? h1)

/-! ## Binary searches -/

theorem partitionPointLoopA_safe {m : Mem α} {p : α → Prog S Q Bool} {s : S} {q : α → Q} {neg : Bool} (hp : Calls1 p s q neg) {xs : List α} {b : Nat}
    (hx : m.Seg b xs) : ∀ (d : Nat) {i count : Nat} {h : List (Q × Bool)}, count < 2 ^ d → i + count ≤ xs.length →
      (∀ c, c.length < d → (∀ e ∈ c, ∃ x ∈ xs, e.1 = q x) → snap (h ++ c) s) →
      Safe can snap (fun h' r => ∃ c k, h' = h ++ c ∧ c.length ≤ d ∧ (∀ e ∈ c, ∃ x ∈ xs, e.1 = q x) ∧ r = b + k ∧ i ≤ k ∧ k ≤ i + count) h
        (partitionPointLoopA m p (b + i) count)
  | 0, i, count, h, hc, hi, hs => by
    have : count = 0 := by simpa using hc
    subst this
    rw [partitionPointLoopA, if_pos rfl]
    exact Safe.pure ⟨[], i, by simp, by simp, by simp, rfl, by omega, by omega⟩
  | d + 1, i, count, h, hc, hi, hs => by
    rw [partitionPointLoopA]
    split
    · exact Safe.pure ⟨[], i, by simp, by simp, by simp, rfl, by omega, by omega⟩
    · have hc' : 2 ^ (d + 1) = 2 ^ d * 2 := Nat.pow_succ ..
      have hv := hx (i + count / 2) (by omega)
      have hmem : xs[i + count / 2]'(by omega) ∈ xs := List.getElem_mem _
      rw [show b + i + count / 2 = b + (i + count / 2) by omega]
      refine safe_read hv (safe_call1 hp (by simpa using hs [] (by simp) (by simp)) fun a _ => ?_)
      have hs' : ∀ c, c.length < d → (∀ e ∈ c, ∃ x ∈ xs, e.1 = q x) → snap (h ++ [(q (xs[i + count / 2]'(by omega)), a)] ++ c) s := fun c h1 h2 => by
        have := hs ((q (xs[i + count / 2]'(by omega)), a) :: c) (by simpa using h1) (fun e he => by
          rcases List.mem_cons.1 he with rfl | he
          · exact ⟨_, hmem, rfl⟩
          · exact h2 e he)
        simpa using this
      split
      · rw [show b + (i + count / 2) + 1 = b + (i + count / 2 + 1) by omega]
        refine Safe.mono (partitionPointLoopA_safe hp hx d (by omega) (by omega) hs') ?_
        rintro h' r ⟨c, k, rfl, h1, h2, h3, h4, h5⟩
        refine ⟨(q (xs[i + count / 2]'(by omega)), a) :: c, k, by simp, by simpa using h1, fun e he => ?_, h3, by omega, by omega⟩
        rcases List.mem_cons.1 he with rfl | he
        · exact ⟨_, hmem, rfl⟩
        · exact h2 e he
      · refine Safe.mono (partitionPointLoopA_safe hp hx d (by omega) (by omega) hs') ?_
        rintro h' r ⟨c, k, rfl, h1, h2, h3, h4, h5⟩
        refine ⟨(q (xs[i + count / 2]'(by omega)), a) :: c, k, by simp, by simpa using h1, fun e he => ?_, h3, by omega, by omega⟩
        rcases List.mem_cons.1 he with rfl | he
        · exact ⟨_, hmem, rfl⟩
        · exact h2 e he

theorem partitionPointA_safe {m : Mem α} {p : α → Prog S Q Bool} {s : S} {q : α → Q} {neg : Bool} (hp : Calls1 p s q neg) {xs : List α} {b : Nat}
    (hx : m.Seg b xs) {i : Nat} (hi : i ≤ xs.length)
    (hs : ∀ c, c.length < (xs.length - i).size → (∀ e ∈ c, ∃ x ∈ xs, e.1 = q x) → snap (h ++ c) s) :
    Safe can snap (fun h' r => ∃ c k, h' = h ++ c ∧ c.length ≤ (xs.length - i).size ∧ (∀ e ∈ c, ∃ x ∈ xs, e.1 = q x) ∧ r = b + k ∧ i ≤ k ∧ k ≤ xs.length) h
      (partitionPointA m p (b + i) (b + xs.length)) := by
  rw [partitionPointA, if_pos (by omega), show b + xs.length - (b + i) = xs.length - i by omega]
  refine Safe.mono (partitionPointLoopA_safe hp hx _ (Nat.lt_size_self _) (by omega) hs) ?_
  rintro h' r ⟨c, k, h0, h1, h2, h3, h4, h5⟩
  exact ⟨c, k, h0, h1, h2, h3, h4, by omega⟩

/-- C77, `partition_point`: for `n` elements at most `⌊log₂ n⌋ + 1` calls (`Nat.size n`, the number of binary digits of
`n`), whatever the predicate answers. -/
theorem C77_partition_point {m : Mem α} {xs : List α} {first : Nat} (hx : m.Seg first xs) :
    Always (fun c s => s = m ∧ c.length < xs.length.size)
      (fun c r => c.length ≤ xs.length.size ∧ (∀ e ∈ c, e.1 ∈ xs) ∧ first ≤ r ∧ r ≤ first + xs.length)
      (partitionPointA m (call m) first (first + xs.length)) := by
  refine Safe.always (snap := fun c s => s = m ∧ c.length < xs.length.size)
    (partitionPointA_safe (i := 0) (calls1_call m id) hx (Nat.zero_le _) (fun c h1 _ => ⟨rfl, by simpa using h1⟩)) (fun _ _ a => a) ?_
  rintro h' r ⟨c, k, rfl, h1, h2, rfl, h4, h5⟩
  refine ⟨by simpa using h1, fun e he => ?_, by omega, by omega⟩
  obtain ⟨x, hx, e1⟩ := h2 e (by simpa using he)
  rw [e1]; exact hx

/-- C77, `lower_bound`. -/
theorem C77_lower_bound {m : Mem α} {xs : List α} {first : Nat} (hx : m.Seg first xs) :
    Always (fun c s => s = m ∧ c.length < xs.length.size)
      (fun c r => c.length ≤ xs.length.size ∧ (∀ e ∈ c, e.1 ∈ xs) ∧ first ≤ r ∧ r ≤ first + xs.length)
      (lowerBoundA m (call m) first (first + xs.length)) := C77_partition_point hx

/-- C77, `upper_bound`. -/
theorem C77_upper_bound {m : Mem α} {xs : List α} {first : Nat} (hx : m.Seg first xs) :
    Always (fun c s => s = m ∧ c.length < xs.length.size)
      (fun c r => c.length ≤ xs.length.size ∧ (∀ e ∈ c, e.1 ∈ xs) ∧ first ≤ r ∧ r ≤ first + xs.length)
      (upperBoundA m (call m) first (first + xs.length)) := by
  refine Safe.always (snap := fun c s => s = m ∧ c.length < xs.length.size)
    (partitionPointA_safe (i := 0) (calls1_not (calls1_call m id)) hx (Nat.zero_le _) (fun c h1 _ => ⟨rfl, by simpa using h1⟩)) (fun _ _ a => a) ?_
  rintro h' r ⟨c, k, rfl, h1, h2, rfl, h4, h5⟩
  refine ⟨by simpa using h1, fun e he => ?_, by omega, by omega⟩
  obtain ⟨x, hx, e1⟩ := h2 e (by simpa using he)
  rw [e1]; exact hx

/-- C77, `equal_range`: at most twice as many. A call is `Sum.inl x` for `cmp(x, value)` and `Sum.inr x` for `cmp(value, x)`. -/
theorem C77_equal_range {m : Mem α} {xs : List α} {first : Nat} (hx : m.Seg first xs) :
    Always (fun c s => s = m ∧ c.length < 2 * xs.length.size)
      (fun c r => c.length ≤ 2 * xs.length.size ∧ (∀ e ∈ c, ∃ x ∈ xs, e.1 = .inl x ∨ e.1 = .inr x) ∧ first ≤ r.1 ∧ r.1 ≤ r.2 ∧ r.2 ≤ first + xs.length)
      (equalRangeA m (fun x => call m (.inl x : α ⊕ α)) (fun x => call m (.inr x)) first (first + xs.length)) := by
  refine Safe.always (snap := fun c s => s = m ∧ c.length < 2 * xs.length.size) (Safe.bind (Safe.mono (partitionPointA_safe (i := 0)
    (calls1_call m Sum.inl) hx (Nat.zero_le _) (fun c h1 _ => ⟨rfl, by simp at h1 ⊢; omega⟩)) ?_)) (fun _ _ a => a) (fun _ _ a => a)
  rintro h' r ⟨c, k, rfl, h1, h2, rfl, h4, h5⟩
  have hsz : (xs.length - k).size ≤ xs.length.size := Nat.size_le_size (by omega)
  refine Safe.bind (Safe.mono (partitionPointA_safe (calls1_not (calls1_call m Sum.inr)) hx h5 (fun c' h6 _ => ⟨rfl, by simp at h1 ⊢; omega⟩)) ?_)
  rintro h'' r ⟨c', k', rfl, h6, h7, rfl, h8, h9⟩
  refine Safe.pure ⟨by simp at h1 ⊢; omega, fun e he => ?_, by omega, by omega, by omega⟩
  rcases List.mem_append.1 he with he | he
  · obtain ⟨x, hx, e1⟩ := h2 e (by simpa using he); exact ⟨x, hx, .inl e1⟩
  · obtain ⟨x, hx, e1⟩ := h7 e he; exact ⟨x, hx, .inr e1⟩

/-- C77, `binary_search`: at most one more. -/
theorem C77_binary_search {m : Mem α} {xs : List α} {first : Nat} (hx : m.Seg first xs) :
    Always (fun c s => s = m ∧ c.length ≤ xs.length.size)
      (fun c _ => c.length ≤ xs.length.size + 1 ∧ ∀ e ∈ c, ∃ x ∈ xs, e.1 = .inl x ∨ e.1 = .inr x)
      (binarySearchA m (fun x => call m (.inl x : α ⊕ α)) (fun x => call m (.inr x)) first (first + xs.length)) := by
  refine Safe.always (snap := fun c s => s = m ∧ c.length ≤ xs.length.size) (Safe.bind (Safe.mono (partitionPointA_safe (i := 0)
    (calls1_call m Sum.inl) hx (Nat.zero_le _) (fun c h1 _ => ⟨rfl, by simp at h1 ⊢; omega⟩)) ?_)) (fun _ _ a => a) (fun _ _ a => a)
  rintro h' r ⟨c, k, rfl, h1, h2, rfl, h4, h5⟩
  have h2' : ∀ e ∈ h', ∃ x ∈ xs, e.1 = .inl x ∨ e.1 = .inr x := fun e he => by
    obtain ⟨x, hx, e1⟩ := h2 e he; exact ⟨x, hx, .inl e1⟩
  split
  · exact Safe.pure ⟨by simp at h1; omega, h2'⟩
  · refine safe_read (hx k (by omega)) ?_
    rw [calls1_not (calls1_call m Sum.inr) xs[k]]
    refine ⟨⟨rfl, by simpa using h1⟩, fun b _ => ⟨_, rfl, by simp at h1 ⊢; omega, fun e he => ?_⟩⟩
    rcases List.mem_append.1 he with he | he
    · exact h2' e he
    · simp only [List.mem_singleton] at he
      subst he
      exact ⟨xs[k], List.getElem_mem _, .inr rfl⟩

/-- The number of digits is the logarithm: `2 ^ (d - 1) ≤ n < 2 ^ d`. -/
theorem size_log {n d : Nat} : n.size ≤ d ↔ n < 2 ^ d := Nat.size_le

/-- What a function that says "before position `k`" can tell apart in `d` calls. -/
theorem leaves_le {S R : Type} (out : Nat → R) : ∀ (d : Nat) (t : Ask S Nat R) (K : Finset Nat),
    (∀ a ∈ K, ∀ b ∈ K, out a = out b → a = b) → (∀ k ∈ K, t.run (fun i => decide (i < k)) = out k ∧ (t.calls fun i => decide (i < k)).length ≤ d) →
    K.card ≤ 2 ^ d := by
  intro d
  induction d with
  | zero =>
    intro t K hinj hK
    refine Finset.card_le_one.2 fun a ha b hb => hinj a ha b hb ?_
    cases t with
    | done r => exact (hK a ha).1.symm.trans (hK b hb).1
    | ask s q k => simpa [Ask.calls] using (hK a ha).2
  | succ d ih =>
    intro t K hinj hK
    cases t with
    | done r =>
      refine Nat.le_trans (Finset.card_le_one.2 fun a ha b hb => hinj a ha b hb ?_) Nat.one_le_two_pow
      exact (hK a ha).1.symm.trans (hK b hb).1
    | ask s q k =>
      have e := Finset.card_filter_add_card_filter_not (s := K) (fun a => q < a)
      have h1 : (K.filter fun a => q < a).card ≤ 2 ^ d := ih (k true) _
        (fun a ha b hb => hinj a (Finset.mem_filter.1 ha).1 b (Finset.mem_filter.1 hb).1) fun a ha => by
          obtain ⟨ha, hq⟩ := Finset.mem_filter.1 ha
          have := hK a ha
          simpa [Ask.run, Ask.calls, hq] using this
      have h2 : (K.filter fun a => ¬ q < a).card ≤ 2 ^ d := ih (k false) _
        (fun a ha b hb => hinj a (Finset.mem_filter.1 ha).1 b (Finset.mem_filter.1 hb).1) fun a ha => by
          obtain ⟨ha, hq⟩ := Finset.mem_filter.1 ha
          have := hK a ha
          simpa [Ask.run, Ask.calls, hq] using this
      rw [Nat.pow_succ]; omega

/-- C77: no algorithm can do with fewer calls than `partition_point`. Whatever calls it makes (here for positions instead of elements), if it
finds the partition point of every partitioned range of `n` elements, then there is one for which it needs `⌊log₂ n⌋ + 1` calls. -/
theorem C77_partition_point_optimal {S : Type} (n : Nat) (t : Prog S Nat Nat) (ht : ∀ k, k ≤ n → t.run (fun i => decide (i < k)) = some k) :
    ∃ k, k ≤ n ∧ n.size ≤ (Ask.calls (fun i => decide (i < k)) t).length := by
  by_contra hcon
  push Not at hcon
  have h0 := hcon 0 (Nat.zero_le _)
  have h1 := leaves_le (out := some) (n.size - 1) t (Finset.range (n + 1)) (fun a _ b _ e => Option.some.inj e) (fun k hk => by
    have hk : k ≤ n := by simp at hk; omega
    exact ⟨ht k hk, by have := hcon k hk; omega⟩)
  rw [Finset.card_range] at h1
  have h2 : n.size ≤ n.size - 1 := size_log.2 (by omega)
  omega

theorem countP_range (n k : Nat) (hk : k ≤ n) : (List.range n).countP (fun i => decide (i < k)) = k := by
  induction n generalizing k with
  | zero => simp; omega
  | succ n ih =>
    rw [List.range_succ, List.countP_append]
    by_cases h : k ≤ n
    · rw [ih k h]; simp; omega
    · obtain rfl : k = n + 1 := by omega
      rw [show (List.range n).countP (fun i => decide (i < n + 1)) = (List.range n).length from
        List.countP_eq_length.2 (fun a ha => by simp at ha ⊢; omega)]
      simp

theorem partitionPointA_positions (n k : Nat) (hk : k ≤ n) :
    (partitionPointA (fun i => some i) (call (S := Unit) ()) 0 n).run (fun i => decide (i < k)) = some k := by
  rw [partitionPointA_run (g := fun i => decide (i < k)) (fun x => rfl)]
  have := C36_partition_point (m := fun i => some i) (p := fun i => decide (i < k)) (xs := List.range n) (first := 0)
    (fun i hi => by simp) (by
      refine List.Pairwise.imp ?_ List.pairwise_lt_range
      intro a b hab hb; simp at hb ⊢; omega)
  simpa [countP_range n k hk] using this

/-- C77: `partition_point` does need that many for some range, for every number of elements. -/
theorem C77_partition_point_attained (n : Nat) :
    ∃ k, k ≤ n ∧ (Ask.calls (fun i => decide (i < k)) (partitionPointA (fun i => some i) (call (S := Unit) ()) 0 n)).length = n.size := by
  obtain ⟨k, hk, h⟩ := C77_partition_point_optimal n _ (fun k hk => partitionPointA_positions n k hk)
  refine ⟨k, hk, Nat.le_antisymm ?_ h⟩
  have hs := Safe.always (snap := fun _ _ => True) (partitionPointA_safe (m := fun i => some i) (xs := List.range n) (b := 0) (i := 0)
    (calls1_call () id) (fun i hi => by simp) (Nat.zero_le _) (fun _ _ _ => trivial)) (fun _ _ a => a) (fun _ _ a => a)
  obtain ⟨x, _, c, j, e, h1, _⟩ := hs.function fun i => decide (i < k)
  have h3 : c.length ≤ n.size := by simpa using h1
  have e' := congrArg List.length e
  simp only [List.length_map, List.nil_append] at e'
  simp only [List.length_range, Nat.zero_add, id] at e'
  exact e' ▸ h3

/-! ### Cases -/

theorem exSorted_seg : exSorted.Seg 3 [1, 2, 2, 4, 7] := seg_of_get fun i hi => by
  match i, hi with
  | 0, _ => rfl
  | 1, _ => rfl
  | 2, _ => rfl
  | 3, _ => rfl
  | 4, _ => rfl

/-- A function object that counts its calls, says no twice, then yes; the theorems apply to it. -/
example : ∃ k, k ≤ 5 ∧ (Ask.exec (fun t q => some (decide (2 ≤ t), t + 1)) 0 (findIfA exSorted (call exSorted) 3 8)).2 =
    ([1, 2, 2, 4, 7].take k).map (·, false) ++ ([1, 2, 2, 4, 7][k]?.toList.map (·, true)) := ⟨2, by decide, by decide +kernel⟩

/-- One that throws at its third call: it had answered for the last two elements. -/
example : (Ask.exec (fun t q => if t = 2 then none else some (false, t + 1)) 0 (findLastIfA exSorted (call ()) 3 8)).2 = [(7, false), (4, false)] := by
  decide +kernel

/-- One that contradicts itself: the middle, then the middle of the first half. -/
example : (Ask.exec (fun t q => some (decide (t % 2 = 1), t + 1)) 0 (partitionPointA exSorted (call ()) 3 8)).2 = [(2, false), (2, true)] := by
  decide +kernel

/-- `is_partitioned` asks once more about the first element that does not satisfy the predicate: `n + 1` calls. -/
example : (Ask.exec (fun t q => some (decide (q < 2), t)) () (isPartitionedA exSorted (call ()) 3 8)).2 =
    [(1, true), (2, false), (2, false), (2, false), (4, false), (7, false)] := by decide +kernel

example : Nat.size 5 = 3 ∧ Nat.size 1000 = 10 ∧ Nat.size 0 = 0 := by decide +kernel

example : Always (fun c s => s = exSorted ∧ c.length < 3) (fun c r => c.length ≤ 3 ∧ (∀ e ∈ c, e.1 ∈ [1, 2, 2, 4, 7]) ∧ 3 ≤ r ∧ r ≤ 8)
    (partitionPointA exSorted (call exSorted) 3 8) := C77_partition_point exSorted_seg

end Verif.Algo
