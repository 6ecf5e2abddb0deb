import Verif.Model.IndexTrans
import Verif.Props.Reuse
import Verif.Props.RangeList
/-!
# C34: translation between global and local indexes (1d)

A process owns the indexes of its task ranges (`own`).  Its mappings have as
required ranges the covering ranges of the task ranges of each map.
-/

namespace Laik
open Lay

/-! ### Covering ranges -/

theorem coverAcc_spec {d : Dims} : ∀ (ts : List TR) (cur : Box) (k : Nat) (rs : List Box),
    coverAcc d cur k ts = some rs →
    (∃ r, rs[0]? = some r ∧ (∀ j, j < d.toNat → r.lo.get j ≤ cur.lo.get j ∧ cur.hi.get j ≤ r.hi.get j) ∧
      ∀ j, j < d.toNat → (r.lo.get j = cur.lo.get j ∨ ∃ t ∈ ts, t.mapNo = k ∧ r.lo.get j = t.box.lo.get j) ∧
        (r.hi.get j = cur.hi.get j ∨ ∃ t ∈ ts, t.mapNo = k ∧ r.hi.get j = t.box.hi.get j)) ∧
    (∀ t ∈ ts, ∃ n r, t.mapNo = ((k + n : Nat) : Int) ∧ rs[n]? = some r ∧
      ∀ j, j < d.toNat → r.lo.get j ≤ t.box.lo.get j ∧ t.box.hi.get j ≤ r.hi.get j) ∧
    (∀ n r, rs[n + 1]? = some r → (∃ t ∈ ts, t.mapNo = ((k + (n + 1) : Nat) : Int)) ∧
      ∀ j, j < d.toNat →
        (∃ t ∈ ts, t.mapNo = ((k + (n + 1) : Nat) : Int) ∧ r.lo.get j = t.box.lo.get j) ∧
        (∃ t ∈ ts, t.mapNo = ((k + (n + 1) : Nat) : Int) ∧ r.hi.get j = t.box.hi.get j)) := by
  intro ts
  induction ts with
  | nil =>
    intro cur k rs h
    simp only [coverAcc, Option.some.injEq] at h
    subst h
    refine ⟨⟨cur, rfl, fun j _ => ⟨by omega, by omega⟩, fun j _ => ⟨.inl rfl, .inl rfl⟩⟩, by simp, ?_⟩
    intro n r hr
    simp at hr
  | cons t ts ih =>
    intro cur k rs h
    unfold coverAcc at h
    by_cases h1 : t.mapNo = k
    · rw [if_pos h1] at h
      obtain ⟨⟨r, hr, hb, hat⟩, h2, h3⟩ := ih _ _ _ h
      have he := fun j hj => expand_get d cur t.box j hj
      refine ⟨⟨r, hr, fun j hj => ?_, fun j hj => ?_⟩, ?_, ?_⟩
      · have := hb j hj; have := he j hj; omega
      · obtain ⟨g1, g2⟩ := hat j hj
        have e := he j hj
        constructor
        · rcases g1 with g | ⟨u, hu, hk, g⟩
          · rw [e.1] at g
            by_cases hm : cur.lo.get j ≤ t.box.lo.get j
            · left; omega
            · right; exact ⟨t, by simp, h1, by omega⟩
          · exact .inr ⟨u, by simp [hu], hk, g⟩
        · rcases g2 with g | ⟨u, hu, hk, g⟩
          · rw [e.2] at g
            by_cases hm : t.box.hi.get j ≤ cur.hi.get j
            · left; omega
            · right; exact ⟨t, by simp, h1, by omega⟩
          · exact .inr ⟨u, by simp [hu], hk, g⟩
      · intro u hu
        simp only [List.mem_cons] at hu
        rcases hu with rfl | hu
        · refine ⟨0, r, by simpa using h1, hr, fun j hj => ?_⟩
          have := hb j hj; have := he j hj; omega
        · exact h2 u hu
      · intro n r' hr'
        obtain ⟨⟨u, hu, hk⟩, g⟩ := h3 n r' hr'
        refine ⟨⟨u, by simp [hu], hk⟩, fun j hj => ?_⟩
        obtain ⟨⟨a, ha, ha1, ha2⟩, ⟨b, hb', hb1, hb2⟩⟩ := g j hj
        exact ⟨⟨a, by simp [ha], ha1, ha2⟩, ⟨b, by simp [hb'], hb1, hb2⟩⟩
    · rw [if_neg h1] at h
      by_cases h4 : t.mapNo = ((k + 1 : Nat) : Int)
      · rw [if_pos h4] at h
        cases hc : coverAcc d t.box (k + 1) ts with
        | none => rw [hc] at h; simp at h
        | some rs' =>
          rw [hc] at h
          simp only [Option.map_some, Option.some.injEq] at h
          subst h
          obtain ⟨⟨r, hr, hb, hat⟩, h2, h3⟩ := ih _ _ _ hc
          refine ⟨⟨cur, rfl, fun j _ => ⟨by omega, by omega⟩, fun j _ => ⟨.inl rfl, .inl rfl⟩⟩, ?_, ?_⟩
          · intro u hu
            simp only [List.mem_cons] at hu
            rcases hu with rfl | hu
            · exact ⟨1, r, h4, by simpa using hr, fun j hj => hb j hj⟩
            · obtain ⟨n, r', g1, g2, g3⟩ := h2 u hu
              exact ⟨n + 1, r', by rw [g1]; congr 1; omega, by simpa using g2, g3⟩
          · intro n r' hr'
            simp only [List.getElem?_cons_succ] at hr'
            cases n with
            | zero =>
              rw [hr] at hr'
              simp only [Option.some.injEq] at hr'
              subst hr'
              refine ⟨⟨t, by simp, h4⟩, fun j hj => ?_⟩
              obtain ⟨g1, g2⟩ := hat j hj
              constructor
              · rcases g1 with g | ⟨u, hu, hk, g⟩
                · exact ⟨t, by simp, h4, g⟩
                · exact ⟨u, by simp [hu], hk, g⟩
              · rcases g2 with g | ⟨u, hu, hk, g⟩
                · exact ⟨t, by simp, h4, g⟩
                · exact ⟨u, by simp [hu], hk, g⟩
            | succ n =>
              obtain ⟨⟨u, hu, hk⟩, g⟩ := h3 n r' hr'
              have e : k + 1 + (n + 1) = k + (n + 1 + 1) := by omega
              rw [e] at hk
              refine ⟨⟨u, by simp [hu], hk⟩, fun j hj => ?_⟩
              obtain ⟨⟨a, ha, ha1, ha2⟩, ⟨b, hb', hb1, hb2⟩⟩ := g j hj
              rw [e] at ha1 hb1
              exact ⟨⟨a, by simp [ha], ha1, ha2⟩, ⟨b, by simp [hb'], hb1, hb2⟩⟩
      · rw [if_neg h4] at h; simp at h

/-- Entry `n` is the smallest box containing all task ranges of map `n`. -/
theorem coveringRanges_spec {d : Dims} {own : List TR} {rs : List Box}
    (h : coveringRanges d own = some rs) :
    (∀ t ∈ own, ∃ n r, t.mapNo = ((n : Nat) : Int) ∧ rs[n]? = some r ∧
      ∀ j, j < d.toNat → r.lo.get j ≤ t.box.lo.get j ∧ t.box.hi.get j ≤ r.hi.get j) ∧
    (∀ (n : Nat) r, rs[n]? = some r → (∃ t ∈ own, t.mapNo = (n : Int)) ∧
      ∀ j, j < d.toNat →
        (∃ t ∈ own, t.mapNo = (n : Int) ∧ r.lo.get j = t.box.lo.get j) ∧
        (∃ t ∈ own, t.mapNo = (n : Int) ∧ r.hi.get j = t.box.hi.get j)) := by
  cases own with
  | nil =>
    simp only [coveringRanges, Option.some.injEq] at h
    subst h; simp
  | cons t ts =>
    simp only [coveringRanges] at h
    by_cases h0 : t.mapNo = 0
    · rw [if_pos h0] at h
      obtain ⟨⟨r, hr, hb, hat⟩, h2, h3⟩ := coverAcc_spec _ _ _ _ h
      constructor
      · intro u hu
        simp only [List.mem_cons] at hu
        rcases hu with rfl | hu
        · exact ⟨0, r, by simpa using h0, hr, fun j hj => hb j hj⟩
        · obtain ⟨n, r', g1, g2, g3⟩ := h2 u hu
          exact ⟨n, r', by rw [g1]; congr 1; omega, g2, g3⟩
      · intro n r' hr'
        cases n with
        | zero =>
          rw [hr] at hr'
          simp only [Option.some.injEq] at hr'
          subst hr'
          refine ⟨⟨t, by simp, by simpa using h0⟩, fun j hj => ?_⟩
          obtain ⟨g1, g2⟩ := hat j hj
          constructor
          · rcases g1 with g | ⟨u, hu, hk, g⟩
            · exact ⟨t, by simp, by simpa using h0, g⟩
            · exact ⟨u, by simp [hu], hk, g⟩
          · rcases g2 with g | ⟨u, hu, hk, g⟩
            · exact ⟨t, by simp, by simpa using h0, g⟩
            · exact ⟨u, by simp [hu], hk, g⟩
        | succ n =>
          obtain ⟨⟨u, hu, hk⟩, g⟩ := h3 n r' hr'
          have e : 0 + (n + 1) = n + 1 := by omega
          rw [e] at hk
          refine ⟨⟨u, by simp [hu], hk⟩, fun j hj => ?_⟩
          obtain ⟨⟨a, ha, ha1, ha2⟩, ⟨b, hb', hb1, hb2⟩⟩ := g j hj
          rw [e] at ha1 hb1
          exact ⟨⟨a, by simp [ha], ha1, ha2⟩, ⟨b, by simp [hb'], hb1, hb2⟩⟩
    · rw [if_neg h0] at h; simp at h

/-- **C34** The required range of map `n` contains all task ranges of this map,
and is the smallest such range. -/
theorem C34_covering {d : Dims} {own : List TR} {rs : List Box}
    (h : coveringRanges d own = some rs) :
    (∀ t ∈ own, ∃ n r, t.mapNo = ((n : Nat) : Int) ∧ rs[n]? = some r ∧ SubsetOf d t.box r) ∧
    ∀ (n : Nat) r, rs[n]? = some r → ∀ c : Box,
      (∀ t ∈ own, t.mapNo = (n : Int) → (∃ p, Mem d t.box p) ∧ SubsetOf d t.box c) →
      SubsetOf d r c := by
  obtain ⟨h1, h2⟩ := coveringRanges_spec h
  constructor
  · intro t ht
    obtain ⟨n, r, g1, g2, g3⟩ := h1 t ht
    refine ⟨n, r, g1, g2, fun p hp j hj => ?_⟩
    have := g3 j hj; have := hp j hj; omega
  · intro n r hr c hc p hp j hj
    obtain ⟨_, g⟩ := h2 n r hr
    obtain ⟨⟨a, ha, ha1, ha2⟩, ⟨b, hb, hb1, hb2⟩⟩ := g j hj
    obtain ⟨na, sa⟩ := hc a ha ha1
    obtain ⟨nb, sb⟩ := hc b hb hb1
    have q1 := (subset_iff d a.box c na).1 sa j hj
    have q2 := (subset_iff d b.box c nb).1 sb j hj
    have := hp j hj
    omega

theorem coverAcc_assign {d : Dims} : ∀ (ts : List TR) (cur : Box) (k : Nat) (g : Int),
    ∃ rs, coverAcc d cur k (assignMaps k g ts) = some rs := by
  intro ts
  induction ts with
  | nil => intro cur k g; exact ⟨_, rfl⟩
  | cons t ts ih =>
    intro cur k g
    unfold assignMaps
    split
    · obtain ⟨rs, hrs⟩ := ih t.box (k + 1) t.tag
      refine ⟨cur :: rs, ?_⟩
      unfold coverAcc
      simp only
      rw [if_neg (by omega), if_pos (by omega)]
      rw [show ((k : Int) + 1) = ((k + 1 : Nat) : Int) by omega, hrs]; rfl
    · obtain ⟨rs, hrs⟩ := ih (cur.expand d t.box) k g
      refine ⟨rs, ?_⟩
      unfold coverAcc
      simp only
      rw [if_pos trivial, hrs]

/-- **C34** With the map numbers assigned when a range list is frozen (C07) the
asserts hold, if the first tag is not -1. -/
theorem C34_covering_defined (d : Dims) (own : List TR) (h : ∀ t ∈ own, t.tag ≠ -1) :
    ∃ rs, coveringRanges d (assignMaps (-1) (-1) own) = some rs := by
  cases own with
  | nil => exact ⟨[], rfl⟩
  | cons t ts =>
    obtain ⟨rs, hrs⟩ := coverAcc_assign (d := d) ts t.box 0 t.tag
    refine ⟨rs, ?_⟩
    unfold assignMaps
    rw [if_pos (.inr (h t (by simp)))]
    simp only [coveringRanges]
    rw [if_pos (by decide)]
    exact hrs

/-! ### Translation -/

theorem g2lLoop_spec (g : Int) : ∀ (rs : List Box) (k : Nat),
    (∀ n l, g2lLoop g k rs = some (n, l) → ∃ i r, n = k + i ∧ rs[i]? = some r ∧
      r.lo.x ≤ g ∧ g < r.hi.x ∧ (l : Int) = g - r.lo.x ∧
      ∀ j c, j < i → rs[j]? = some c → ¬ (c.lo.x ≤ g ∧ g < c.hi.x)) ∧
    (g2lLoop g k rs = none ↔ ∀ r ∈ rs, ¬ (r.lo.x ≤ g ∧ g < r.hi.x)) := by
  intro rs
  induction rs with
  | nil => intro k; simp [g2lLoop]
  | cons r rs ih =>
    intro k
    obtain ⟨h1, h2⟩ := ih (k + 1)
    by_cases hin : r.lo.x ≤ g ∧ g < r.hi.x
    · have he : g2lLoop g k (r :: rs) = some (k, (g - r.lo.x).toNat) := by
        unfold g2lLoop; rw [if_neg (by omega), if_neg (by omega)]
      rw [he]
      constructor
      · intro n l hnl
        simp only [Option.some.injEq, Prod.mk.injEq] at hnl
        exact ⟨0, r, by omega, rfl, hin.1, hin.2, by omega, fun j c hj => by omega⟩
      · constructor
        · intro h; simp at h
        · intro h; exact absurd hin (h r (by simp))
    · have he : g2lLoop g k (r :: rs) = g2lLoop g (k + 1) rs := by
        conv => lhs; unfold g2lLoop
        by_cases ha : g < r.lo.x
        · rw [if_pos ha]
        · rw [if_neg ha, if_pos (by omega)]
      rw [he]
      constructor
      · intro n l hnl
        obtain ⟨i, c, g1, g2, g3, g4, g5, g6⟩ := h1 n l hnl
        refine ⟨i + 1, c, by omega, by simpa using g2, g3, g4, g5, ?_⟩
        intro j c' hj hc'
        cases j with
        | zero => simp only [List.getElem?_cons_zero, Option.some.injEq] at hc'; subst hc'; exact hin
        | succ j => exact g6 j c' (by omega) (by simpa using hc')
      · rw [h2]
        constructor
        · intro h c hc
          simp only [List.mem_cons] at hc
          rcases hc with rfl | hc
          · exact hin
          · exact h c hc
        · intro h c hc; exact h c (by simp [hc])

/-- **C34** Not found exactly for indexes in no mapping (in particular if there
are no active mappings); else the first mapping containing the index is
returned, and the local index is the distance from the start of its required
range.  The variant with map number agrees. -/
theorem C34_global2local (rs : List Box) (g : Int) :
    (global2local (some rs) g = none ↔ ∀ r ∈ rs, ¬ Mem .d1 r ⟨g, 0, 0⟩) ∧
    (∀ n l, global2local (some rs) g = some (n, l) →
      ∃ r, rs[n]? = some r ∧ Mem .d1 r ⟨g, 0, 0⟩ ∧ g = r.lo.x + l ∧
        ∀ j c, j < n → rs[j]? = some c → ¬ Mem .d1 c ⟨g, 0, 0⟩) ∧
    (global2maplocal (some rs) g).2 = global2local (some rs) g ∧
    (global2maplocal (some rs) g).1 =
      some (match global2local (some rs) g with | some (n, _) => (n : Int) | none => -1) := by
  obtain ⟨h1, h2⟩ := g2lLoop_spec g rs 0
  refine ⟨?_, ?_, ?_, ?_⟩
  · simp only [global2local, h2, mem_d1]
  · intro n l h
    obtain ⟨i, r, e, g2, g3, g4, g5, g6⟩ := h1 n l h
    have : n = i := by omega
    subst this
    refine ⟨r, g2, by rw [mem_d1]; exact ⟨g3, g4⟩, by omega, ?_⟩
    intro j c hj hc
    rw [mem_d1]; exact g6 j c hj hc
  · unfold global2maplocal global2local
    simp only
    cases h : g2lLoop g 0 rs <;> rfl
  · unfold global2maplocal global2local
    simp only
    cases h : g2lLoop g 0 rs <;> rfl

/-- **C34** Global → local → global is the identity on indexes in a mapping. -/
theorem C34_round_trip_global {rs : List Box} {g : Int} {n l : Nat}
    (h : global2local (some rs) g = some (n, l)) :
    maplocal2global (some rs) n l = some g ∧ (rs.length = 1 → local2global (some rs) l = some g) := by
  obtain ⟨r, h1, h2, h3, _⟩ := (C34_global2local rs g).2.1 n l h
  rw [mem_d1] at h2
  simp only at h2
  have hl : l < (r.hi.x - r.lo.x).toNat := by omega
  constructor
  · simp [maplocal2global, h1, hl]; omega
  · intro hlen
    match rs, hlen with
    | [r'], _ =>
      cases n with
      | zero =>
        simp only [List.getElem?_cons_zero, Option.some.injEq] at h1
        subst h1
        simp [local2global, hl]; omega
      | succ n => simp at h1

/-- **C34** Local → global → local is the identity, if the required ranges of
the mappings are disjoint; in any case the global index is in the mapping, and
translating it back gives a mapping containing it. -/
theorem C34_round_trip_local {rs : List Box} {g : Int} {n l : Nat}
    (h : maplocal2global (some rs) n l = some g) :
    (∃ r, rs[n]? = some r ∧ Mem .d1 r ⟨g, 0, 0⟩) ∧
    (∃ n' l', n' ≤ n ∧ global2local (some rs) g = some (n', l')) ∧
    ((∀ (i j : Nat) (a b : Box), i ≠ j → rs[i]? = some a → rs[j]? = some b → ∀ p, Mem .d1 a p → ¬ Mem .d1 b p) →
      global2local (some rs) g = some (n, l)) := by
  unfold maplocal2global at h
  simp only at h
  cases hr : rs[n]? with
  | none => rw [hr] at h; simp at h
  | some r =>
    rw [hr] at h
    simp only at h
    split at h
    · rename_i hl
      simp only [Option.some.injEq] at h
      have hm : Mem .d1 r ⟨g, 0, 0⟩ := by rw [mem_d1]; simp only; omega
      have hex : ∃ n' l' r', n' ≤ n ∧ global2local (some rs) g = some (n', l') ∧
          rs[n']? = some r' ∧ Mem .d1 r' ⟨g, 0, 0⟩ ∧ g = r'.lo.x + l' := by
        cases hg : global2local (some rs) g with
        | none =>
          exact absurd hm ((C34_global2local rs g).1.1 hg r (List.mem_of_getElem? hr))
        | some v =>
          obtain ⟨n', l'⟩ := v
          obtain ⟨r', h1, h2, h3, h4⟩ := (C34_global2local rs g).2.1 n' l' hg
          refine ⟨n', l', r', ?_, rfl, h1, h2, h3⟩
          by_cases hc : n < n'
          · exact absurd hm (h4 n r hc hr)
          · omega
      obtain ⟨n', l', r', e1, e2, e3, e4, e5⟩ := hex
      refine ⟨⟨r, rfl, hm⟩, ⟨n', l', e1, e2⟩, ?_⟩
      intro hdis
      by_cases hnn : n' = n
      · subst hnn
        rw [hr] at e3
        simp only [Option.some.injEq] at e3
        subst e3
        rw [e2]
        have : l' = l := by omega
        rw [this]
      · exact absurd hm (hdis n' n r' r hnn e3 hr _ e4)
    · simp at h

/-- **C34** Every owned index is found; an index not found is not owned. -/
theorem C34_owned_found {own : List TR} {rs : List Box} (h : coveringRanges .d1 own = some rs)
    {g : Int} (hg : ∃ t ∈ own, Mem .d1 t.box ⟨g, 0, 0⟩) :
    ∃ n l, global2local (some rs) g = some (n, l) := by
  obtain ⟨t, ht, hm⟩ := hg
  obtain ⟨n, r, _, hr, hs⟩ := (C34_covering h).1 t ht
  cases hx : global2local (some rs) g with
  | none => exact absurd (hs _ hm) ((C34_global2local rs g).1.1 hx r (List.mem_of_getElem? hr))
  | some v => exact ⟨v.1, v.2, rfl⟩

/-- **C34, partial** Not found exactly for indexes not owned, if no map has
gaps (each map is one task range, or a union of task ranges without gap).
Missing (false of the code): maps with several ranges (same tag) and gaps
between them, see `C34_gap_found`. -/
theorem C34_not_found_partial {own : List TR} {rs : List Box}
    (h : coveringRanges .d1 own = some rs)
    (hgap : ∀ r ∈ rs, ∀ p, Mem .d1 r p → ∃ t ∈ own, Mem .d1 t.box p) (g : Int) :
    global2local (some rs) g = none ↔ ¬ ∃ t ∈ own, Mem .d1 t.box ⟨g, 0, 0⟩ := by
  constructor
  · intro hn hex
    obtain ⟨n, l, hl⟩ := C34_owned_found h hex
    rw [hn] at hl; simp at hl
  · intro hno
    rw [(C34_global2local rs g).1]
    intro r hr hm
    exact hno (hgap r hr _ hm)

/-- The condition holds if no two task ranges share a map (e.g. without tags). -/
theorem C34_no_gap {own : List TR} {rs : List Box} (h : coveringRanges .d1 own = some rs)
    (huniq : ∀ t ∈ own, ∀ u ∈ own, t.mapNo = u.mapNo → t = u) :
    ∀ r ∈ rs, ∀ p, Mem .d1 r p → ∃ t ∈ own, Mem .d1 t.box p := by
  intro r hr p hp
  obtain ⟨n, hn⟩ := List.mem_iff_getElem?.1 hr
  obtain ⟨_, g⟩ := (coveringRanges_spec h).2 n r hn
  obtain ⟨⟨a, ha, ha1, ha2⟩, ⟨b, hb, hb1, hb2⟩⟩ := g 0 (by decide)
  have : a = b := huniq a ha b hb (by rw [ha1, hb1])
  subst this
  refine ⟨a, ha, ?_⟩
  rw [mem_d1] at hp ⊢
  simp only [Idx.get] at ha2 hb2
  omega

/-- … and then the mappings are disjoint if the task ranges are. -/
theorem C34_disjoint {own : List TR} {rs : List Box} (h : coveringRanges .d1 own = some rs)
    (huniq : ∀ t ∈ own, ∀ u ∈ own, t.mapNo = u.mapNo → t = u)
    (hdis : ∀ t ∈ own, ∀ u ∈ own, t ≠ u → ∀ p, Mem .d1 t.box p → ¬ Mem .d1 u.box p) :
    ∀ (i j : Nat) (a b : Box), i ≠ j → rs[i]? = some a → rs[j]? = some b →
      ∀ p, Mem .d1 a p → ¬ Mem .d1 b p := by
  have key : ∀ (n : Nat) (r : Box), rs[n]? = some r → ∃ t ∈ own, t.mapNo = (n : Int) ∧
      ∀ p, Mem .d1 r p → Mem .d1 t.box p := by
    intro n r hn
    obtain ⟨_, g⟩ := (coveringRanges_spec h).2 n r hn
    obtain ⟨⟨a, ha, ha1, ha2⟩, ⟨b, hb, hb1, hb2⟩⟩ := g 0 (by decide)
    have : a = b := huniq a ha b hb (by rw [ha1, hb1])
    subst this
    refine ⟨a, ha, ha1, fun p hp => ?_⟩
    rw [mem_d1] at hp ⊢
    simp only [Idx.get] at ha2 hb2
    omega
  intro i j a b hij ha hb p hpa hpb
  obtain ⟨t, ht, ht1, ht2⟩ := key i a ha
  obtain ⟨u, hu, hu1, hu2⟩ := key j b hb
  refine hdis t ht u hu ?_ p (ht2 p hpa) (hu2 p hpb)
  intro he
  rw [he, hu1] at ht1
  omega

/-- **C34** The local index is the right position in memory: the cell of the
global index is `base + local index`. -/
theorem C34_cell {ml : MList} (h : ml.OK) (hd : ml.lay.dims = .d1) {g : Int} {n l : Nat}
    (hg : global2local (some (ml.maps.map DMap.required)) g = some (n, l))
    (hmem : ∀ m ∈ ml.maps, m.start ≠ none) :
    ∃ m b, ml.maps[n]? = some m ∧ m.base = some b ∧ ml.addr n ⟨g, 0, 0⟩ = some (b + l) := by
  obtain ⟨r, h1, h2, h3, _⟩ := (C34_global2local _ g).2.1 n l hg
  simp only [List.getElem?_map, Option.map_eq_some_iff] at h1
  obtain ⟨m, hm, rfl⟩ := h1
  cases hs : m.start with
  | none => exact absurd hs (hmem m (List.mem_of_getElem? hm))
  | some s =>
    obtain ⟨a, q1, q2⟩ := C33_local_access h hm hs (p := ⟨g, 0, 0⟩) (by rw [hd]; exact h2)
    unfold localAddr at q1
    rw [hm] at q1
    simp only at q1
    cases hb : m.base with
    | none => rw [hb] at q1; simp at q1
    | some b =>
      rw [hb, hd] at q1
      simp only [Option.some.injEq] at q1
      refine ⟨m, b, hm, hb, ?_⟩
      rw [q2, ← q1]
      simp only [subIndex, Option.some.injEq]
      omega

/-! Examples: three ranges without tags; two ranges in one map. -/
namespace TransEx
def tr (lo hi tag mapNo : Int) : TR := ⟨0, tag, ⟨⟨lo, 0, 0⟩, ⟨hi, 0, 0⟩⟩, mapNo⟩
def bx (lo hi : Int) : Box := ⟨⟨lo, 0, 0⟩, ⟨hi, 0, 0⟩⟩
def own1 : List TR := [tr 0 4 0 0, tr 10 12 0 1, tr 20 25 0 2]
def own2 : List TR := [tr 0 2 1 0, tr 5 6 1 0, tr 3 4 2 1]
example : coveringRanges .d1 own1 = some [bx 0 4, bx 10 12, bx 20 25] := by decide
example : coveringRanges .d1 own2 = some [bx 0 6, bx 3 4] := by decide
example : global2local (some [bx 0 4, bx 10 12, bx 20 25]) 22 = some (2, 2) ∧
    maplocal2global (some [bx 0 4, bx 10 12, bx 20 25]) 2 2 = some 22 ∧
    global2local (some [bx 0 4, bx 10 12, bx 20 25]) 5 = none := by decide
example : ∀ t ∈ own1, ∀ u ∈ own1, t.mapNo = u.mapNo → t = u := by decide
end TransEx

/-- **C34 fails** of the code for maps with gaps: index 4 is not owned, but a
mapping is found for it; index 3 is owned in map 1, but map 0 is found, so that
translating local index 0 of map 1 to global and back gives another place. -/
theorem C34_gap_found :
    coveringRanges .d1 TransEx.own2 = some [TransEx.bx 0 6, TransEx.bx 3 4] ∧
    (¬ ∃ t ∈ TransEx.own2, Mem .d1 t.box ⟨4, 0, 0⟩) ∧
    global2local (some [TransEx.bx 0 6, TransEx.bx 3 4]) 4 = some (0, 4) ∧
    maplocal2global (some [TransEx.bx 0 6, TransEx.bx 3 4]) 1 0 = some 3 ∧
    global2local (some [TransEx.bx 0 6, TransEx.bx 3 4]) 3 = some (0, 3) := by
  refine ⟨by decide, ?_, by decide, by decide, by decide⟩
  simp [TransEx.own2, TransEx.tr, mem_d1]

/-- **C34 fails** for the map number output without active mappings: it is not
set to -1, but left as it was. -/
theorem C34_mapno_unset (g : Int) : global2maplocal none g = (none, none) := rfl

end Laik
