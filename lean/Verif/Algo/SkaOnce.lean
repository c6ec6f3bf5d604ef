import Verif.Algo.SkaEarly

/-!
# When american_flag_sort returns early (C42)

If the largest byte occurs more than once then `american_flag_sort` always leaves its blocks unsorted (`SkaEarly`). Here: if it occurs once, then
the last two elements of the range decide. Together this settles for every range by a number of two bytes whether it is sorted.
-/

namespace Verif.Algo

variable {α : Type}

section
variable {dg : α → Nat} {xs : List α} {ps : Parts}

/-- The largest byte `z` occurs once, `e` is the second largest one; `u` and `w` are the last two elements. -/
structure OnceOnTop (dg : α → Nat) (xs : List α) (e z : Nat) (u w : α) : Prop where
  once : (xs.filter fun x => decide (dg x = z)).length = 1
  top : ∀ x ∈ xs, dg x ≤ z
  below : e < z
  second : ∃ x ∈ xs, dg x = e
  others : ∀ x ∈ xs, dg x ≠ z → dg x ≤ e
  last : ∃ l, xs = l ++ [u, w]

/-- The condition on the last two elements: the one before the last is not of the second largest byte, unless the two are the largest and one of
the second largest byte. -/
def StopsEarly (dg : α → Nat) (e z : Nat) (u w : α) : Prop := dg u ≠ e ∧ ¬(dg u = z ∧ dg w = e)

theorem OnceOnTop.facts {e z : Nat} {u w : α} (h : OnceOnTop dg xs e z u w) :
    startOf dg xs z + 1 = xs.length ∧ startOf dg xs (z + 1) = xs.length ∧ startOf dg xs (e + 1) + 1 = xs.length ∧
      startOf dg xs e < startOf dg xs (e + 1) ∧ 2 ≤ xs.length ∧ xs[xs.length - 2]? = some u ∧ xs[xs.length - 1]? = some w := by
  have h1 : startOf dg xs (z + 1) = xs.length := startOf_all fun x hx => Nat.lt_succ_of_le (h.top x hx)
  have h2 := startOf_succ dg xs z
  have h3 : startOf dg xs (e + 1) = startOf dg xs z := by
    rw [startOf, startOf]
    congr 1
    refine List.filter_congr fun x hx => ?_
    have hb := h.below
    have ht := h.top x hx
    by_cases hxz : dg x = z
    · simp only [hxz, decide_eq_decide]; omega
    · have := h.others x hx hxz
      simp only [decide_eq_decide]; omega
  rw [h.once] at h2
  obtain ⟨x, hx, hxe⟩ := h.second
  have h4 := startOf_lt (dg := dg) hx
  rw [hxe] at h4
  obtain ⟨l, hl⟩ := h.last
  have hlen : xs.length = l.length + 2 := by rw [hl]; simp
  refine ⟨by omega, h1, by omega, h4, by omega, ?_, ?_⟩
  · rw [hlen, hl, show l.length + 2 - 2 = l.length by omega, List.getElem?_append_right (Nat.le_refl _)]; simp
  · rw [hlen, hl, show l.length + 2 - 1 = l.length + 1 by omega, List.getElem?_append_right (by omega)]; simp

/-- Once the block before the last one is worked on, the loop ends at its end and the blocks are sorted. -/
theorem flagLoop_second {first ci e : Nat} (hci : ps.remaining[ci]? = some e) (hn : ps.next e + 1 = xs.length) :
    ∀ (f : Nat) {m m' : Mem α} {offset : Nat → Nat} {it : Nat} {early : Bool},
      flagLoop dg ps first xs.length f m offset ci it = some (m', early) → early = false
  | 0, m, m', offset, it, early, h => by rw [flagLoop] at h; cases h
  | f + 1, m, m', offset, it, early, h => by
    rw [flagLoop, hci] at h
    cases hv : m it with
    | none => rw [hv] at h; cases h
    | some v =>
      rw [hv] at h
      simp only [Option.bind_eq_bind, Option.bind_some] at h
      by_cases hvc : dg v = e
      · rw [if_pos hvc] at h
        by_cases hend : it + 1 = first + xs.length - 1
        · rw [if_pos hend] at h
          injection h with h; injection h with _ h; exact h.symm
        · rw [if_neg hend, if_neg (by omega)] at h
          exact flagLoop_second hci hn f h
      · rw [if_neg hvc] at h
        split at h
        · cases hsw : m.swapAt it (first + offset (dg v)) with
          | none => rw [hsw] at h; cases h
          | some m1 =>
            rw [hsw] at h
            exact flagLoop_second hci hn f h
        · cases h

/-- What is known while a block before the second largest one is worked on. -/
structure OnceInv (dg : α → Nat) (xs ys : List α) (offset : Nat → Nat) (e z : Nat) (u w : α) (it : Nat) : Prop where
  rest : ∀ p, offset e ≤ p → p < xs.length - 1 → ys[p]? = xs[p]?
  lastOne : offset z = xs.length - 1 → ys[xs.length - 1]? = xs[xs.length - 1]?
  chain : offset e = startOf dg xs e ∨ (∃ x, xs[offset e - 1]? = some x ∧ dg x ≠ e) ∨ ∃ v, ys[it]? = some v ∧ dg v = e
  swapped : dg u = z → dg w = e → offset e < xs.length - 1

theorem OnceInv.moved {ys : List α} {offset : Nat → Nat} {e z : Nat} {u w : α} {it it' : Nat} (h : OnceInv dg xs ys offset e z u w it) {v : α}
    (hv : ys[it]? = some v) (hve : dg v ≠ e) : OnceInv dg xs ys offset e z u w it' := by
  refine ⟨h.rest, h.lastOne, ?_, h.swapped⟩
  rcases h.chain with h1 | h1 | ⟨v', h1, h2⟩
  · exact .inl h1
  · exact .inr (.inl h1)
  · rw [hv] at h1
    injection h1 with h1
    subst h1
    exact absurd h2 hve

theorem flagLoop_once (hd : ∀ x ∈ xs, dg x < 256) (hps : PartsOf dg xs ps) {first e z : Nat} {u w : α} (ho : OnceOnTop dg xs e z u w)
    (he : ps.remaining[ps.remaining.length - 2]? = some e) (hz : ps.remaining[ps.remaining.length - 1]? = some z) :
    ∀ (f : Nat) {m m' : Mem α} {offset : Nat → Nat} {ci it cur : Nat} {ys : List α} {early : Bool},
    m.Seg first ys → ps.remaining[ci]? = some cur → cur < e → Settled dg xs ys (effOf dg xs offset cur it) →
    it < startOf dg xs (cur + 1) → OnceInv dg xs ys offset e z u w it →
    flagLoop dg ps first xs.length f m offset ci (first + it) = some (m', early) → (early = true ↔ StopsEarly dg e z u w)
  | 0, m, m', offset, ci, it, cur, ys, early, hs, hcur, hce, hset, hit, hinv, hrun => by rw [flagLoop] at hrun; cases hrun
  | f + 1, m, m', offset, ci, it, cur, ys, early, hs, hcur, hce, hset, hit, hinv, hrun => by
    obtain ⟨F1, F2, F3, F4, F5, F6, F7⟩ := ho.facts
    have hez := ho.below
    have hc256 := (hps.mem.1 (hps.get_mem hcur)).1
    have he256 := (hps.mem.1 (hps.get_mem he)).1
    have hz256 := (hps.mem.1 (hps.get_mem hz)).1
    have hlen := hset.perm.length_eq
    have hSc := startOf_mono dg xs (show cur + 1 ≤ e by omega)
    have hitn : it < ys.length := by omega
    obtain ⟨v, hv⟩ : ∃ v, ys[it]? = some v := ⟨_, List.getElem?_eq_getElem hitn⟩
    have hvm : v ∈ xs := hset.perm.mem_iff.1 (List.mem_iff_getElem?.2 ⟨it, hv⟩)
    have hv256 : dg v < 256 := hd v hvm
    obtain ⟨hlt, hstep⟩ := hset.step hc256 (by rw [effOf_eq]) hit hv hv256
    have hcie : ci < ps.remaining.length - 2 := (hps.get_lt_iff hcur he).1 hce
    -- the largest byte is at one position only
    have htop : ∀ (zs : List α) (p q : Nat) (x y : α), zs.Perm xs → zs[xs.length - 1]? = some x → dg x = z → zs[p]? = some y → dg y = z → p = xs.length - 1 := by
      intro zs p q x y hp hx hxz hy hyz
      have hpl : p < zs.length := (List.getElem?_eq_some_iff.1 hy).1
      rw [hp.length_eq] at hpl
      have := (full_block hp (c := z) (fun p' y' a1 a2 hy' => by
        obtain rfl : p' = xs.length - 1 := by omega
        rw [hx] at hy'
        injection hy' with hy'
        rw [← hy']; exact hxz) hy hyz).1
      omega
    rw [flagLoop, hs.get hitn, hv, hcur] at hrun
    simp only [Option.bind_eq_bind, Option.bind_some] at hrun
    by_cases hvc : dg v = cur
    · rw [if_pos hvc, if_neg (by omega), hps.next cur hc256] at hrun
      rw [hvc, effOf_eq, swapped_self hitn] at hstep
      have heff : ∀ d, upd (effOf dg xs offset cur it) cur (it + 1) d = effOf dg xs offset cur (it + 1) d := by
        intro d
        by_cases hdc : d = cur
        · subst hdc; rw [upd_same, effOf_eq]
        · rw [upd_other _ _ hdc, effOf, effOf, if_neg hdc, if_neg hdc]
      have hstep' := hstep.congr (eff' := effOf dg xs offset cur (it + 1)) fun d _ => heff d
      have hve : dg v ≠ e := by omega
      by_cases hbe : first + it + 1 = first + startOf dg xs (cur + 1)
      · rw [if_pos hbe] at hrun
        obtain ⟨r, er, r1, r2⟩ := nextBlock_spec hps (offset := offset) ps.remaining.length ci (by omega) (by omega)
        simp only [er, Option.bind_some] at hrun
        have hempty : ∀ d, d < 256 → d ∉ ps.remaining → startOf dg xs (d + 1) ≤ effOf dg xs offset cur (it + 1) d := by
          intro d hd256 hno
          have := hstep'.lo d hd256
          rw [hps.mem] at hno
          omega
        have hcomplete : ∀ j d : Nat, ps.remaining[j]? = some d → offset d = ps.next d → cur < d → effOf dg xs offset cur (it + 1) d = startOf dg xs (d + 1) := by
          intro j d hj ho hl
          rw [effOf_gt hl, ho, hps.next d (hps.mem.1 (hps.get_mem hj)).1]
        cases r with
        | none =>
          simp only [Option.some.injEq, Prod.mk.injEq] at hrun
          obtain ⟨-, rfl⟩ := hrun
          have hfull := r1 rfl _ e hcie (by omega) he
          rw [hps.next e he256] at hfull
          refine ⟨fun _ => ⟨?_, fun ⟨a, b⟩ => ?_⟩, fun _ => rfl⟩
          · rcases hinv.chain with h1 | ⟨x, h1, h2⟩ | ⟨v', h1, h2⟩
            · omega
            · rw [hfull, show startOf dg xs (e + 1) - 1 = xs.length - 2 by omega, F6] at h1
              injection h1 with h1
              rw [h1]; exact h2
            · rw [hv] at h1
              injection h1 with h1
              subst h1
              exact absurd h2 hve
          · have := hinv.swapped a b
            omega
        | some ci' =>
          obtain ⟨b1, b2, b3, c, hc, hne⟩ := r2 ci' rfl
          have hcc : cur < c := hps.get_lt hcur hc b1
          have hc256' := (hps.mem.1 (hps.get_mem hc)).1
          have hnew : ∀ d, d < 256 → effOf dg xs offset cur (it + 1) d = effOf dg xs offset c (offset c) d := by
            intro d hd256
            rcases Nat.lt_trichotomy d c with h | h | h
            · rw [effOf_lt h]
              have hhi := hstep'.hi d hd256
              by_cases hin : d ∈ ps.remaining
              · obtain ⟨j, hj⟩ := List.mem_iff_getElem?.1 hin
                rcases Nat.lt_trichotomy d cur with h' | h' | h'
                · rw [effOf_lt h']
                · subst h'; rw [effOf_eq]; omega
                · exact hcomplete j d hj (b3 j d ((hps.get_lt_iff hcur hj).1 h') ((hps.get_lt_iff hj hc).1 h) hj) h'
              · have := hempty d hd256 hin; omega
            · subst h; rw [effOf_eq, effOf_gt hcc]
            · rw [effOf_gt h, effOf_gt (by omega)]
          simp only [hc, Option.bind_some] at hrun
          have hset' := hstep'.congr hnew
          have hoff : offset c < startOf dg xs (c + 1) := by
            have := hstep'.hi c hc256'
            rw [effOf_gt hcc] at this
            rw [hps.next c hc256'] at hne
            omega
          by_cases hcec : c = e
          · subst hcec
            have h0 := flagLoop_second (xs := xs) hc (by rw [hps.next c hc256']; exact F3) f hrun
            subst h0
            refine ⟨(fun h => by cases h), fun hst => ?_⟩
            exfalso
            -- the element before the last has not been moved
            have hu : ys[xs.length - 2]? = some u := by
              rw [hinv.rest _ (by omega) (by omega)]; exact F6
            -- no smaller byte is left there
            have hlow : ∀ p y, startOf dg xs c ≤ p → ys[p]? = some y → dg y = c ∨ dg y = z := by
              intro p y hp hy
              have hym : y ∈ xs := hset.perm.mem_iff.1 (List.mem_iff_getElem?.2 ⟨p, hy⟩)
              by_cases hyz : dg y = z
              · exact .inr hyz
              · left
                have := ho.others y hym hyz
                by_contra hne'
                have hyc : dg y < c := by omega
                have hfb := full_block hset'.perm (c := dg y) (fun p' y' a1 a2 hy' =>
                  hset'.cls (dg y) (hd y hym) p' y' a1 (by rw [effOf_lt hyc]; exact a2) hy') hy rfl
                have := startOf_mono dg xs (show dg y + 1 ≤ c by omega)
                omega
            have huz : dg u = z := by
              rcases hlow _ u (by omega) hu with h | h
              · exact absurd h hst.1
              · exact h
            obtain ⟨y, hy⟩ : ∃ y, ys[xs.length - 1]? = some y := ⟨_, List.getElem?_eq_getElem (by omega)⟩
            have hyz : dg y ≠ z := by
              intro h
              have := htop ys _ 0 y u hset.perm hy h hu huz
              omega
            have hye : dg y = c := by
              rcases hlow _ y (by omega) hy with h | h
              · exact h
              · exact absurd h hyz
            have hoz : offset z = xs.length - 1 := by
              have a1 := hset'.lo z hz256
              have a2 := hset'.hi z hz256
              rw [effOf_gt hez] at a1 a2
              by_contra hne'
              refine hyz (hset'.cls z hz256 (xs.length - 1) y (by omega) ?_ hy)
              rw [effOf_gt hez]
              omega
            have hw := hinv.lastOne hoz
            rw [hy, F7] at hw
            injection hw with hw
            subst hw
            exact hst.2 ⟨huz, hye⟩
          · have hclt : c < e := by
              rcases Nat.lt_trichotomy c e with h | h | h
              · exact h
              · exact absurd h hcec
              · have := (hps.get_lt_iff he hc).1 h
                omega
            exact flagLoop_once hd hps ho he hz f hs hc hclt hset' hoff (hinv.moved hv hve) hrun
      · rw [if_neg hbe] at hrun
        exact flagLoop_once hd hps ho he hz f hs hcur hce hstep' (by omega) (hinv.moved hv hve) hrun
    · rw [if_neg hvc] at hrun
      have hgt : cur < dg v := by
        rcases Nat.lt_trichotomy (dg v) cur with h | h | h
        · rw [effOf_lt h] at hlt; omega
        · exact absurd h hvc
        · exact h
      rw [effOf_gt hgt] at hlt hstep
      have hoffn : offset (dg v) < xs.length := by have := startOf_le dg xs (dg v + 1); omega
      rw [if_pos hoffn] at hrun
      obtain ⟨m1, e1, s1, f1⟩ := swapAt_spec hs (i := it) (j := offset (dg v)) hitn (by omega)
      simp only [e1, Option.bind_some] at hrun
      have heff : ∀ d, upd (effOf dg xs offset cur it) (dg v) (offset (dg v) + 1) d = effOf dg xs (upd offset (dg v) (offset (dg v) + 1)) cur it d := by
        intro d
        by_cases hdv : d = dg v
        · subst hdv; rw [upd_same, effOf_gt hgt, upd_same]
        · rw [upd_other _ _ hdv, effOf, effOf, upd_other _ _ hdv]
      have hlo : ∀ d, cur < d → d < 256 → startOf dg xs d ≤ offset d ∧ offset d ≤ startOf dg xs (d + 1) := by
        intro d hcd hd256
        have a1 := hset.lo d hd256
        have a2 := hset.hi d hd256
        rw [effOf_gt hcd] at a1 a2
        exact ⟨a1, a2⟩
      have hlov := hlo _ hgt hv256
      have hloe := hlo e hce he256
      have hloz := hlo z (by omega) hz256
      have hj : offset (dg v) < ys.length := by omega
      refine flagLoop_once hd hps ho he hz f s1 hcur hce (hstep.congr fun d _ => heff d) hit ⟨?_, ?_, ?_, ?_⟩ hrun
      · intro p hp1 hp2
        have hpo : offset e ≤ p := by
          by_cases hve : e = dg v
          · subst hve; rw [upd_same] at hp1; omega
          · rwa [upd_other _ _ hve] at hp1
        have hpj : p ≠ offset (dg v) := by
          by_cases hve : e = dg v
          · subst hve; rw [upd_same] at hp1; omega
          · rcases Nat.lt_or_gt_of_ne hve with h | h
            · have := startOf_mono dg xs (show e + 1 ≤ dg v by omega); omega
            · have := startOf_mono dg xs (show dg v + 1 ≤ e by omega); omega
        rw [swapped_get hitn hj, if_neg hpj, if_neg (by omega), hinv.rest p hpo hp2]
      · intro hz1
        by_cases hvz : z = dg v
        · subst hvz; rw [upd_same] at hz1; omega
        · rw [upd_other _ _ hvz] at hz1
          have hjl : xs.length - 1 ≠ offset (dg v) := by
            rcases Nat.lt_or_gt_of_ne hvz with h | h
            · have := ho.top v hvm; omega
            · have := startOf_mono dg xs (show dg v + 1 ≤ z by omega); omega
          rw [swapped_get hitn hj, if_neg hjl, if_neg (by omega)]
          exact hinv.lastOne hz1
      · by_cases hve : e = dg v
        · subst hve
          right
          have hx : xs[offset (dg v)]? = ys[offset (dg v)]? := (hinv.rest _ (Nat.le_refl _) (by omega)).symm
          obtain ⟨x, hxx⟩ : ∃ x, ys[offset (dg v)]? = some x := ⟨_, List.getElem?_eq_getElem hj⟩
          by_cases hxe : dg x = dg v
          · right
            refine ⟨x, ?_, hxe⟩
            rw [swapped_get hitn hj, if_neg (by omega), if_pos rfl, hxx]
          · left
            refine ⟨x, ?_, hxe⟩
            rw [upd_same, Nat.add_sub_cancel, hx, hxx]
        · rw [upd_other _ _ hve]
          rcases hinv.chain with h1 | h1 | ⟨v', h1, h2⟩
          · exact .inl h1
          · exact .inr (.inl h1)
          · rw [hv] at h1
            injection h1 with h1
            subst h1
            exact absurd h2.symm hve
      · intro huz hwe
        have hold := hinv.swapped huz hwe
        by_cases hve : e = dg v
        · rw [hve, upd_same]
          by_contra hge
          have hjn : offset (dg v) = xs.length - 2 := by rw [hve] at hold; omega
          have hu : ys[xs.length - 2]? = some u := by
            rw [hinv.rest _ (by rw [hve]; omega) (by omega)]; exact F6
          obtain ⟨y, hy⟩ : ∃ y, ys[xs.length - 1]? = some y := ⟨_, List.getElem?_eq_getElem (by omega)⟩
          have hyz : dg y ≠ z := by
            intro h
            have := htop ys _ 0 y u hset.perm hy h hu huz
            omega
          have hoz : offset z = xs.length - 1 := by
            by_contra hne'
            refine hyz (hset.cls z hz256 (xs.length - 1) y (by omega) ?_ hy)
            rw [effOf_gt (by omega)]
            omega
          have hw := hinv.lastOne hoz
          rw [hy, F7] at hw
          injection hw with hw
          subst hw
          -- the block of the second largest byte is full, but there is one more element of it at the end
          have hsw : (swapped ys it (offset (dg v)))[xs.length - 1]? = some y := by
            rw [swapped_get hitn hj, if_neg (by omega), if_neg (by omega), hy]
          have := (full_block hstep.perm (c := e) (fun p' y' a1 a2 hy' =>
            hstep.cls e he256 p' y' a1 (by rw [hve, upd_same]; rw [hve] at F3 a2; omega) hy') hsw hwe).2
          omega
        · rw [upd_other _ _ hve]; exact hold

theorem flagMove_once (hd : ∀ x, dg x < 256) {m : Mem α} {first e z : Nat} {u w : α} (hs : m.Seg first xs) (ho : OnceOnTop dg xs e z u w) :
    ∃ m1 early, (do let ps ← partitionCounts dg m first xs.length; flagMove dg ps m first xs.length) = some (m1, early) ∧
      (early = true ↔ StopsEarly dg e z u w) := by
  obtain ⟨F1, F2, F3, F4, F5, F6, F7⟩ := ho.facts
  have hd' : ∀ x ∈ xs, dg x < 256 := fun x _ => hd x
  obtain ⟨ps, e0, hps⟩ := partitionCounts_spec (dg := dg) hs
  obtain ⟨xe, hxe, hde⟩ := ho.second
  have hzpos : startOf dg xs z < startOf dg xs (z + 1) := by omega
  obtain ⟨xz, hxz, hdz⟩ := startOf_mem hzpos
  have hez := ho.below
  -- the places of the two bytes
  obtain ⟨jz, hjz⟩ := List.mem_iff_getElem?.1 (hps.mem.2 ⟨by rw [← hdz]; exact hd xz, hzpos⟩)
  obtain ⟨je, hje⟩ := List.mem_iff_getElem?.1 (hps.mem.2 ⟨by rw [← hde]; exact hd xe, F4⟩)
  have hjzl : jz < ps.remaining.length := (List.getElem?_eq_some_iff.1 hjz).1
  have hlt := (hps.get_lt_iff hje hjz).1 hez
  have hz : jz = ps.remaining.length - 1 := by
    by_contra hne
    obtain ⟨d, hdd⟩ : ∃ d, ps.remaining[jz + 1]? = some d := ⟨_, List.getElem?_eq_getElem (by omega)⟩
    obtain ⟨x, hx, hxd⟩ := startOf_mem (hps.mem.1 (hps.get_mem hdd)).2
    have := hps.get_lt hjz hdd (by omega)
    have := ho.top x hx
    omega
  have he : je = ps.remaining.length - 2 := by
    by_contra hne
    obtain ⟨d, hdd⟩ : ∃ d, ps.remaining[je + 1]? = some d := ⟨_, List.getElem?_eq_getElem (by omega)⟩
    obtain ⟨x, hx, hxd⟩ := startOf_mem (hps.mem.1 (hps.get_mem hdd)).2
    have h1 := hps.get_lt hje hdd (by omega)
    have h2 := hps.get_lt hdd hjz (by omega)
    have := ho.others x hx (by omega)
    omega
  subst hz he
  obtain ⟨cur, hcur⟩ : ∃ c, ps.remaining[0]? = some c := ⟨_, List.getElem?_eq_getElem (by omega)⟩
  have hcm := hps.mem.1 (hps.get_mem hcur)
  have hempty : ∀ d, d < cur → startOf dg xs (d + 1) = startOf dg xs d := by
    intro d hdc
    have hno : d ∉ ps.remaining := by
      intro hm
      obtain ⟨j, hj⟩ := List.mem_iff_getElem?.1 hm
      have := (hps.get_lt_iff hj hcur).1 hdc
      omega
    rw [hps.mem] at hno
    have := startOf_mono dg xs (show d ≤ d + 1 by omega)
    omega
  have hc0 : ∀ k, k ≤ cur → startOf dg xs k = 0 := by
    intro k
    induction k with
    | zero => intro _; simp [startOf]
    | succ k ih => intro hk; rw [hempty k (by omega), ih (by omega)]
  have heff : ∀ d, d < 256 → startOf dg xs d = effOf dg xs ps.offset cur 0 d := by
    intro d hd256
    rcases Nat.lt_trichotomy d cur with h | h | h
    · rw [effOf_lt h, hempty d h]
    · subst h; rw [effOf_eq]; exact hc0 d (Nat.le_refl _)
    · rw [effOf_gt h, hps.offset d hd256]
  have hit : 0 < startOf dg xs (cur + 1) := by have := hc0 cur (Nat.le_refl _); omega
  have hset : Settled dg xs xs (effOf dg xs ps.offset cur 0) := Settled.start.congr heff
  obtain ⟨m1, ys, early, a1, a2, a3, a4, a5, a6⟩ := flagLoop_spec (ps := ps) hd' hps (first := first) (xs.length + 1) (offset := ps.offset) (ci := 0) (it := 0) (cur := cur) hs hcur
    (by omega) hset hit (by rw [← gap_congr 256 heff, gap_start, startOf_all hd']; omega)
  have hrun : (do let ps ← partitionCounts dg m first xs.length; flagMove dg ps m first xs.length) = some (m1, early) := by
    rw [e0]
    simp only [Option.bind_eq_bind, Option.bind_some]
    rw [flagMove, if_pos (by omega)]
    exact a1
  refine ⟨m1, early, hrun, ?_⟩
  have hoe := hps.offset e (hps.mem.1 (hps.get_mem hje)).1
  by_cases hce : cur < e
  · exact flagLoop_once hd' hps ho hje hjz _ hs hcur hce hset hit
      ⟨fun _ _ _ => rfl, fun _ => rfl, .inl hoe, fun _ _ => by omega⟩ a1
  · -- only two different bytes
    have hcee : cur = e := by
      rcases Nat.lt_trichotomy cur e with h | h | h
      · exact absurd h hce
      · exact h
      · have := (hps.get_lt_iff hje hcur).1 h; omega
    subst hcee
    have h0 := flagLoop_second (xs := xs) hcur (by rw [hps.next cur hcm.1]; exact F3) _ a1
    subst h0
    refine ⟨(fun h => by cases h), fun hst => ?_⟩
    exfalso
    have hno : ∀ x ∈ xs, dg x = cur ∨ dg x = z := by
      intro x hx
      by_cases hxz : dg x = z
      · exact .inr hxz
      · left
        have h1 := ho.others x hx hxz
        by_contra hne
        have h2 := startOf_lt (dg := dg) hx
        have h3 := hempty (dg x) (by omega)
        omega
    have hum : u ∈ xs := List.mem_iff_getElem?.2 ⟨_, F6⟩
    have hwm : w ∈ xs := List.mem_iff_getElem?.2 ⟨_, F7⟩
    have huz : dg u = z := (hno u hum).resolve_left hst.1
    have hwz : dg w = z := (hno w hwm).resolve_left fun h => hst.2 ⟨huz, h⟩
    have := (full_block (List.Perm.refl xs) (c := z) (fun p y p1 p2 hy => by
      obtain rfl : p = xs.length - 1 := by omega
      rw [F7] at hy
      injection hy with hy
      rw [← hy]; exact hwz) F6 huz).1
    omega

end

/-! ## The results -/

/-- The ranges that `american_flag_sort` only brings into the order of the leading bytes: 129 to 1023 elements with at least two different leading
bytes, and the largest one occurs twice or the last two elements meet the condition. -/
def BlocksLeft (top : α → Nat) (xs : List α) : Prop :=
  LeavesEarly top xs ∨ 128 < xs.length ∧ xs.length < 1024 ∧ ∃ e z u w, OnceOnTop top xs e z u w ∧ StopsEarly top e z u w

theorem blocksLeft_flagMove {top : α → Nat} {m : Mem α} {first : Nat} {xs : List α} (hs : m.Seg first xs) (h : BlocksLeft top xs) (ht : ∀ x, top x < 256) :
    128 < xs.length ∧ xs.length < 1024 ∧ ∃ m1, (do let ps ← partitionCounts top m first xs.length; flagMove top ps m first xs.length) = some (m1, true) := by
  rcases h with h | ⟨h1, h2, e, z, u, w, h3, h4⟩
  · have hrec : SortsOk (fun x y => decide (top x < top y)) (fun _ => True) (fun x y => True ∧ top x = top y) (runNext none) := by
      intro m first xs hs hxs
      refine ⟨m, xs, false, rfl, hs, List.Perm.refl _, fun _ => sorted_of_equiv fun x hx y hy => ?_, fun _ => rfl, fun _ _ => rfl⟩
      have := (hxs x hx y hy).2
      simp only [decide_eq_false_iff_not]; omega
    obtain ⟨m', ys, e, e1, s1, p1, so1, -, t1, er1, f1⟩ := americanFlagSort_spec (done := true) (R := fun _ _ => True) ht hrec
      (fun x y _ hlt => by simp only [decide_eq_false_iff_not]; omega) (fun _ x y _ he => by simp only [decide_eq_false_iff_not]; omega) hs fun _ _ _ _ => trivial
    exact ⟨h.long, h.short, er1 h.differ h.twice⟩
  · obtain ⟨m1, early, a1, a2⟩ := flagMove_once ht hs h3
    obtain rfl := a2.2 h4
    exact ⟨h1, h2, m1, a1⟩

/-- All of these ranges are only brought into the order of their leading bytes: the rest of the keys and the standard library's sort have no
influence on the result. -/
theorem C42_american_flag_blocks_left {b : Nat} {top : α → Nat} {m : Mem α} {first : Nat} {xs : List α} (hs : m.Seg first xs) (h : BlocksLeft top xs) (ht : ∀ x, top x < 256) :
    ∃ m' ys, m'.Seg first ys ∧ ys.Perm xs ∧ (ys.map top).Pairwise (· ≤ ·) ∧ m.SameOff m' (InRange first xs.length) ∧
      ∀ (std : Mem α → Nat → Nat → Option (Mem α)) (f : α → Nat), (∀ x, byteOf f (b + 1) x = top x) → skaSort std (.num (b + 2) f) m first xs.length = some (m', true) := by
  obtain ⟨h1, h2, m1, hm1⟩ := blocksLeft_flagMove hs h ht
  have hrec : SortsOk (fun x y => decide (top x < top y)) (fun _ => True) (fun x y => True ∧ top x = top y) (runNext none) := by
    intro m first xs hs hxs
    refine ⟨m, xs, false, rfl, hs, List.Perm.refl _, fun _ => sorted_of_equiv fun x hx y hy => ?_, fun _ => rfl, fun _ _ => rfl⟩
    have := (hxs x hx y hy).2
    simp only [decide_eq_false_iff_not]; omega
  obtain ⟨m', ys, e, e1, s1, p1, so1, -, t1, er1, f1⟩ := americanFlagSort_spec (done := true) (R := fun _ _ => True) ht hrec
    (fun x y _ hlt => by simp only [decide_eq_false_iff_not]; omega) (fun _ x y _ he => by simp only [decide_eq_false_iff_not]; omega) hs fun _ _ _ _ => trivial
  have e2 := americanFlagSort_early (done := true) (rec := runNext none) hm1
  rw [e1] at e2
  injection e2 with e2
  injection e2 with e2 e3
  subst e2
  refine ⟨m', ys, s1, p1, ?_, f1, fun std f hf => ?_⟩
  · rw [List.pairwise_map]
    exact (so1 e3).imp fun hab => by simp only [decide_eq_false_iff_not] at hab; omega
  · have hbyte : currentByte f (b + 1) = top := by rw [currentByte_byteOf]; funext x; exact hf x
    simp only [skaSort, inplaceRadixSort, Desc.chain, sortStarter, runNext]
    rw [if_neg (by omega)]
    simp only [inplaceSort]
    rw [sortSelector, if_neg (by simpa using h1), if_pos (by simpa using h2), hbyte]
    rw [americanFlagSort_early (done := (b + 1 == 0 && (none : Option (Sorter α)).isNone)) hm1]
    rfl

theorem exists_max {top : α → Nat} : ∀ {xs : List α} {z : α}, z ∈ xs → ∃ x ∈ xs, ∀ y ∈ xs, top y ≤ top x
  | a :: l, z, hz => by
    cases l with
    | nil => exact ⟨a, by simp, fun y hy => by simp at hy; rw [hy]⟩
    | cons c l =>
      obtain ⟨x, hx, hm⟩ := exists_max (top := top) (xs := c :: l) (z := c) (by simp)
      by_cases hax : top a ≤ top x
      · refine ⟨x, List.mem_cons_of_mem _ hx, fun y hy => ?_⟩
        rcases List.mem_cons.1 hy with rfl | hy
        · exact hax
        · exact hm y hy
      · refine ⟨a, by simp, fun y hy => ?_⟩
        rcases List.mem_cons.1 hy with rfl | hy
        · exact Nat.le_refl _
        · have := hm y hy; omega

/-- Every range of 129 to 1023 elements with two different leading bytes is one of `LeavesEarly` or has a largest byte that occurs once. -/
theorem leavesEarly_or_once {top : α → Nat} {xs : List α} (h1 : 128 < xs.length) (h2 : xs.length < 1024) (hne : ∃ x ∈ xs, ∃ y ∈ xs, top x ≠ top y) :
    LeavesEarly top xs ∨ ∃ e z u w, OnceOnTop top xs e z u w := by
  obtain ⟨x0, hx0, y0, hy0, hxy⟩ := hne
  obtain ⟨z, hz, hmax⟩ := exists_max (top := top) hx0
  by_cases htw : 2 ≤ (xs.filter fun y => decide (top y = top z)).length
  · left
    refine ⟨h1, h2, ⟨x0, hx0, y0, hy0, hxy⟩, fun x hx hxm => ?_⟩
    have : top x = top z := by
      have a := hmax x hx
      have b := hxm z hz
      omega
    rw [this]; exact htw
  · right
    obtain ⟨v, hv, hvz⟩ : ∃ v ∈ xs, top v ≠ top z := by
      by_cases h : top x0 = top z
      · exact ⟨y0, hy0, by omega⟩
      · exact ⟨x0, hx0, h⟩
    obtain ⟨e, he, hem⟩ := exists_max (top := top) (xs := xs.filter fun x => decide (top x ≠ top z)) (z := v) (List.mem_filter.2 ⟨hv, by simpa using hvz⟩)
    rw [List.mem_filter, decide_eq_true_eq] at he
    have hpos : 0 < (xs.filter fun y => decide (top y = top z)).length := List.length_pos_of_mem (List.mem_filter.2 ⟨hz, by simp⟩)
    obtain ⟨l, w, rfl⟩ : ∃ l w, xs = l ++ [w] := by
      rcases List.eq_nil_or_concat xs with h | ⟨l, w, h⟩
      · rw [h] at h1; simp at h1
      · exact ⟨l, w, by simpa using h⟩
    obtain ⟨l, u, rfl⟩ : ∃ l' u, l = l' ++ [u] := by
      rcases List.eq_nil_or_concat l with h | ⟨l', u, h⟩
      · rw [h] at h1; simp at h1
      · exact ⟨l', u, by simpa using h⟩
    refine ⟨top e, top z, u, w, by omega, hmax, ?_, ⟨e, he.1, rfl⟩, fun x hx hxz => ?_, l, by simp⟩
    · have := hmax e he.1; omega
    · exact hem x (List.mem_filter.2 ⟨hx, by simpa using hxz⟩)

/-- `ska_sort` by a number of two or more bytes: a range of any length is sorted unless it is one of the ranges whose blocks are left unsorted, if
the groups of elements with the same leading byte meet the condition `GroupsFit`.
The full claim is that every range is sorted; for the ranges `BlocksLeft` see `C42_american_flag_blocks_left`. -/
theorem C42_ska_sort_leading_byte_partial {b : Nat} {f : α → Nat} (hw : (Desc.num (b + 2) f).WF) {std : Mem α → Nat → Nat → Option (Mem α)} (hstd : SortsBy (Desc.num (b + 2) f).less std)
    {m : Mem α} {first : Nat} {xs : List α} (hs : m.Seg first xs) (hg : ¬BlocksLeft (byteOf f (b + 1)) xs)
    (hin : ∀ d, d < 256 → GroupsFit f (b + 1) (xs.filter fun x => decide (byteOf f (b + 1) x = d))) :
    ∃ m' ys, skaSort std (.num (b + 2) f) m first xs.length = some (m', false) ∧ m'.Seg first ys ∧ IsSort (Desc.num (b + 2) f).less xs ys ∧ m.SameOff m' (InRange first xs.length) := by
  by_cases hfit : xs.length ≤ 128 ∨ 1024 ≤ xs.length ∨ ∀ x ∈ xs, ∀ y ∈ xs, byteOf f (b + 1) x = byteOf f (b + 1) y
  · refine C42_ska_sort_groups_partial hw hstd hs ?_
    rcases hfit with h | h | h
    · exact .inl h
    · exact .inr ⟨.inl h, hin⟩
    · exact .inr ⟨.inr (.inr h), hin⟩
  · have h1 : 128 < xs.length := by
      by_contra h; exact hfit (.inl (by omega))
    have h2 : xs.length < 1024 := by
      by_contra h; exact hfit (.inr (.inl (by omega)))
    have hne : ∃ x ∈ xs, ∃ y ∈ xs, byteOf f (b + 1) x ≠ byteOf f (b + 1) y := by
      by_contra h
      push Not at h
      exact hfit (.inr (.inr h))
    have ht : ∀ x, byteOf f (b + 1) x < 256 := fun x => Nat.mod_lt _ (by omega)
    rcases leavesEarly_or_once h1 h2 hne with hl | ⟨e, z, u, w, ho⟩
    · exact absurd (.inl hl) hg
    · obtain ⟨m1, early, a1, a2⟩ := flagMove_once ht hs ho
      have hearly : early = false := by
        cases early with
        | false => rfl
        | true => exact absurd (.inr ⟨h1, h2, e, z, u, w, ho, a2.1 rfl⟩) hg
      subst hearly
      have hall : ∀ x y : α, f x / 256 ^ (b + 2) = f y / 256 ^ (b + 2) := fun x y => by rw [Nat.div_eq_of_lt (hw.2 x), Nat.div_eq_of_lt (hw.2 y)]
      have hless : ∀ x y : α, True → f x < f y → (Desc.num (b + 2) f).less y x = false := fun x y _ h => by simp only [Desc.less, decide_eq_false_iff_not]; omega
      have hsame : ∀ x y : α, True → f x = f y → (Desc.num (b + 2) f).less x y = false := fun x y _ h => by simp only [Desc.less, decide_eq_false_iff_not]; omega
      have hrec : SortsOk (Desc.num (b + 2) f).less (GroupsFit f (b + 1)) (fun x y => True ∧ byteOf f (b + 1) x = byteOf f (b + 1) y) (sortSelector ⟨128, 1024, std⟩ f none (b + 1)) := by
        refine (sortSelector_fits (full := (Desc.num (b + 2) f).less) (std := std) hstd (R := fun _ _ => True) (f := f) hless hsame (b + 1)).mono fun x y h => ⟨trivial, ?_⟩
        have h3 := h.2
        rw [← currentByte_byteOf] at h3
        rw [div_byte f (b + 1) x, div_byte f (b + 1) y, hall x y, h3]
      obtain ⟨m', ys, e', e1, s1, p1, so1, -, t1, -, f1⟩ := americanFlagSort_spec (done := false) (R := fun _ _ => True) ht hrec
        (fun x y _ hlt => by
          refine hless x y trivial ?_
          by_contra hge
          have h3 := Nat.div_le_div_right (c := 256 ^ (b + 1)) (show f y ≤ f x by omega)
          have h4 := div_byte f (b + 1) x
          have h5 := div_byte f (b + 1) y
          have h6 : f x / 256 ^ (b + 1 + 1) = f y / 256 ^ (b + 1 + 1) := hall x y
          rw [currentByte_byteOf] at h4 h5
          omega)
        (fun h => by cases h) hs fun _ _ _ _ => trivial
      have he' : e' = false := t1 (.inr (.inr fun m2 h => by rw [a1] at h; injection h with h; injection h with _ h; cases h)) fun d hd l hl => (hin d hd).perm hl
      subst he'
      refine ⟨m', ys, ?_, s1, ⟨so1 rfl, p1⟩, f1⟩
      simp only [skaSort, inplaceRadixSort, Desc.chain, sortStarter, runNext]
      rw [if_neg (by omega)]
      simp only [inplaceSort]
      rw [sortSelector, if_neg (by simpa using h1), if_pos (by simpa using h2), currentByte_byteOf]
      exact e1

/-- For two bytes this divides the ranges exactly: those that are not `BlocksLeft` are sorted, and of the others the second bytes are ignored
(`C42_american_flag_blocks_left`). -/
theorem C42_ska_sort_two_bytes_partial {f : α → Nat} (hw : (Desc.num 2 f).WF) {std : Mem α → Nat → Nat → Option (Mem α)} (hstd : SortsBy (Desc.num 2 f).less std) {m : Mem α}
    {first : Nat} {xs : List α} (hs : m.Seg first xs) (hg : ¬BlocksLeft (byteOf f 1) xs) :
    ∃ m' ys, skaSort std (.num 2 f) m first xs.length = some (m', false) ∧ m'.Seg first ys ∧ IsSort (Desc.num 2 f).less xs ys ∧ m.SameOff m' (InRange first xs.length) :=
  C42_ska_sort_leading_byte_partial hw hstd hs hg fun _ _ => .inr ⟨.inr (.inl rfl), fun _ _ => trivial⟩

/-! ## Examples -/

/-- 127 times 0, then 2 and 1: the blocks are sorted. With 1, 0 and 2 at the end they are not. -/
example : OnceOnTop (fun x : Nat => x) (List.replicate 127 0 ++ [2, 1]) 1 2 2 1 ∧ ¬StopsEarly (fun x : Nat => x) 1 2 2 1 := by
  refine ⟨⟨by simp [List.filter_append, List.filter_replicate], fun x hx => ?_, by omega, ⟨1, by simp, rfl⟩, fun x hx h => ?_, _, rfl⟩, fun h => h.2 ⟨rfl, rfl⟩⟩ <;>
  · simp only [List.mem_append, List.mem_replicate, List.mem_cons, List.not_mem_nil, or_false] at hx
    omega

example : BlocksLeft (fun x : Nat => x) (List.replicate 127 0 ++ [1] ++ [0, 2]) := by
  refine .inr ⟨by simp, by simp, 1, 2, 0, 2, ⟨by simp [List.filter_append, List.filter_replicate], fun x hx => ?_, by omega, ⟨1, by simp, rfl⟩, fun x hx h => ?_, _, rfl⟩, by simp [StopsEarly]⟩ <;>
  · simp only [List.mem_append, List.mem_replicate, List.mem_cons, List.not_mem_nil, or_false] at hx
    omega

end Verif.Algo
