import Verif.Model.Reuse
/-!
# Lemmas about re-use of allocations
-/

namespace Laik.Lay

theorem newLayoutLex_spec {d : Dims} {ranges : List Box} {l : LexLayout}
    (h : newLayoutLex d ranges = some l) :
    l.dims = d ∧ l.GoodL ∧ l.e.length = ranges.length ∧
    (∀ (n : Nat) (b : Box), ranges[n]? = some b → ∃ e, l.e[n]? = some e ∧ newLexEntry d b = some e) := by
  unfold newLayoutLex at h
  cases he : newLexEntries d ranges with
  | none => rw [he] at h; simp at h
  | some es =>
    rw [he] at h
    simp only [Option.some.injEq] at h
    obtain ⟨hl, hg⟩ := newLexEntries_get he
    subst h
    refine ⟨rfl, ?_, hl, hg⟩
    intro e hin
    obtain ⟨n, hn⟩ := List.mem_iff_getElem?.1 hin
    have hlt : n < ranges.length := by
      have := (List.getElem?_eq_some_iff.1 hn).1
      simp only at this
      omega
    obtain ⟨e', h1, h2⟩ := hg n _ (List.getElem?_eq_getElem hlt)
    simp only at hn
    rw [hn] at h1
    simp only [Option.some.injEq] at h1
    subst h1
    exact newLexEntry_good h2

theorem good_nonempty {d : Dims} {e : LexEntry} (h : Good d e) : Mem d e.box e.box.lo := by
  obtain ⟨hx, hy, hz, _⟩ := good_spec h
  cases d
  · rw [mem_d1]; omega
  · rw [mem_d2]; simp [ylo, yhi] at hy; omega
  · rw [mem_d3]; simp [ylo, yhi, zlo, zhi] at hy hz; omega

theorem prepMaps_ok {d : Dims} {ranges : List Box} {ml : MList} (h : prepMaps d ranges = some ml) :
    ml.OK ∧ ml.lay.dims = d ∧ ml.maps = ranges.map fun r => ⟨none, none, r, r, none⟩ := by
  unfold prepMaps at h
  cases hl : newLayoutLex d ranges with
  | none => rw [hl] at h; simp at h
  | some l =>
    rw [hl] at h
    simp only [Option.some.injEq] at h
    obtain ⟨h1, h2, h3, h4⟩ := newLayoutLex_spec hl
    subst h
    refine ⟨⟨h2, by simp [h3], ?_, ?_⟩, h1, rfl⟩
    · intro m hm
      simp only [List.mem_map] at hm
      obtain ⟨r, hr, rfl⟩ := hm
      obtain ⟨n, hn⟩ := List.mem_iff_getElem?.1 hr
      obtain ⟨e, _, he⟩ := h4 n r hn
      have := good_nonempty (newLexEntry_good he)
      rw [newLexEntry_box he] at this
      simp only
      rw [h1]
      exact ⟨_, this⟩
    · intro i m e hm he
      left
      simp only [List.getElem?_map, Option.map_eq_some_iff] at hm
      obtain ⟨r, hr, rfl⟩ := hm
      obtain ⟨e', he', hn⟩ := h4 i r hr
      simp only at he
      rw [he] at he'
      simp only [Option.some.injEq] at he'
      subst he'
      exact ⟨rfl, rfl, newLexEntry_box hn⟩

theorem allocMap_ok {ml ml' : MList} {i : Nat} {a : Int} (h : ml.OK)
    (ha : allocMap ml i a = some ml') : ml'.OK := by
  unfold allocMap at ha
  cases hm : ml.maps[i]? with
  | none => rw [hm] at ha; simp at ha
  | some m =>
    rw [hm] at ha
    simp only at ha
    split at ha
    · simp only [Option.some.injEq] at ha; subst ha; exact h
    · split at ha
      · simp at ha
      · simp only [Option.some.injEq] at ha
        rename_i hb hs
        subst ha
        refine ⟨h.good, by simp [h.len], ?_, ?_⟩
        · intro m' hm'
          rcases List.mem_or_eq_of_mem_set hm' with g | g
          · exact h.ne m' g
          · subst g; exact h.ne m (List.mem_of_getElem? hm)
        · intro j m' e hj he
          simp only at he hj
          by_cases hij : i = j
          · subst hij
            have hlt := (List.getElem?_eq_some_iff.1 hm).1
            rw [List.getElem?_set_self hlt] at hj
            simp only [Option.some.injEq] at hj
            subst hj
            right
            rcases h.maps i m e hm he with ⟨_, _, g3⟩ | ⟨s, hs'⟩
            · refine ⟨a, rfl, g3, fun p hp => hp, ?_⟩
              have hoff : e.off ml.lay.dims m.required.lo = 0 := by
                rw [← g3]
                cases ml.lay.dims <;> simp [LexEntry.off]
              simp [hoff]
            · rw [hs'.base] at hb; simp at hb
          · rw [List.getElem?_set_ne hij] at hj
            exact h.maps j m' e hj he

/-- What a successful search returns. -/
theorem findReuse_spec {lay : LexLayout} {i : Nat} {old : LexLayout} (all : List DMap)
    (hi : i < lay.e.length) (hlen : old.e.length = all.length) :
    ∀ (ms : List DMap) (k : Nat), all.drop k = ms →
      ∃ r, findReuse lay i old k ms = some r ∧
        ∀ lay' s m, r = some (lay', s, m) → all[s]? = some m ∧ m.base ≠ none ∧
          m.reusedFor = none ∧ reuseLex lay i old s = some (lay', true) := by
  intro ms
  induction ms with
  | nil => intro k _; exact ⟨none, rfl, by simp⟩
  | cons m ms ih =>
    intro k hk
    have hk' : all.drop (k + 1) = ms := by
      rw [← List.drop_drop, hk]; rfl
    have hmk : all[k]? = some m := by
      have : (all.drop k)[0]? = some m := by rw [hk]; rfl
      simpa using this
    have hklt := (List.getElem?_eq_some_iff.1 hmk).1
    obtain ⟨r, hr, hspec⟩ := ih (k + 1) hk'
    unfold findReuse
    by_cases h1 : m.base = none
    · rw [if_pos h1]; exact ⟨r, hr, hspec⟩
    · rw [if_neg h1]
      by_cases h2 : m.reusedFor = none
      · rw [if_neg (by simp [h2])]
        have e1 : lay.e[i]? = some lay.e[i] := List.getElem?_eq_getElem hi
        have e2 : old.e[k]? = some (old.e[k]'(by omega)) := List.getElem?_eq_getElem _
        cases hb : (lay.e[i]).box.within lay.dims (old.e[k]'(by omega)).box with
        | true =>
          have hr' : ∃ lay', reuseLex lay i old k = some (lay', true) := by
            simp [reuseLex, e1, e2, hb]
          obtain ⟨lay', hr'⟩ := hr'
          rw [hr']
          refine ⟨some (lay', k, m), rfl, ?_⟩
          intro a s m' he
          simp only [Option.some.injEq, Prod.mk.injEq] at he
          obtain ⟨rfl, rfl, rfl⟩ := he
          exact ⟨hmk, h1, h2, hr'⟩
        | false =>
          have hr' : reuseLex lay i old k = some (lay, false) := by
            simp [reuseLex, e1, e2, hb]
          rw [hr']
          exact ⟨r, hr, hspec⟩
      · rw [if_pos h2]; exact ⟨r, hr, hspec⟩

theorem reuseLex_true {lay lay' : LexLayout} {i : Nat} {old : LexLayout} {s : Nat}
    (h : reuseLex lay i old s = some (lay', true)) :
    ∃ eNew eOld, lay.e[i]? = some eNew ∧ old.e[s]? = some eOld ∧
      eNew.box.within lay.dims eOld.box = true ∧ lay'.dims = lay.dims ∧
      lay'.e = lay.e.set i eOld := by
  unfold reuseLex at h
  cases h1 : lay.e[i]? with
  | none => rw [h1] at h; simp at h
  | some eNew =>
    cases h2 : old.e[s]? with
    | none => rw [h1, h2] at h; simp at h
    | some eOld =>
      rw [h1, h2] at h
      simp only at h
      split at h
      · rename_i hw
        simp only [Option.some.injEq, Prod.mk.injEq, and_true] at h
        exact ⟨eNew, eOld, rfl, rfl, hw, by rw [← h], by rw [← h]⟩
      · simp at h

theorem subset_of_within {d : Dims} {a b : Box} (h : a.within d b = true)
    (hne : ∃ p, Mem d a p) : SubsetOf d a b := by
  rw [subset_iff d a b hne]
  rw [within_iff_dims] at h
  obtain ⟨p, hp⟩ := hne
  intro k hk
  have := hp k hk
  exact h k hk (by omega)

/-- Old list unchanged except for re-use marks. -/
def SameMaps (fr0 fr : MList) : Prop :=
  fr.lay = fr0.lay ∧ fr.maps.length = fr0.maps.length ∧
  ∀ (s : Nat) (m : DMap), fr.maps[s]? = some m →
    ∃ m0, fr0.maps[s]? = some m0 ∧ m = { m0 with reusedFor := m.reusedFor } ∧
      (m0.reusedFor ≠ none → m.reusedFor = m0.reusedFor)

theorem SameMaps.addr {fr0 fr : MList} (h : SameMaps fr0 fr) (s : Nat) (p : Idx) :
    fr.addr s p = fr0.addr s p := by
  obtain ⟨h1, h2, h3⟩ := h
  unfold MList.addr
  cases hm : fr.maps[s]? with
  | none =>
    have : fr0.maps[s]? = none := by
      rw [List.getElem?_eq_none_iff] at hm ⊢; omega
    rw [this]
  | some m =>
    obtain ⟨m0, h4, h5, _⟩ := h3 s m hm
    rw [h4]
    have : m.start = m0.start := by rw [h5]
    simp only [this, h1]

theorem SameMaps.ok {fr0 fr : MList} (h : SameMaps fr0 fr) (hok : fr0.OK) : fr.OK := by
  obtain ⟨h1, h2, h3⟩ := h
  refine ⟨by rw [h1]; exact hok.good, by rw [h1, h2]; exact hok.len, ?_, ?_⟩
  · intro m hm
    obtain ⟨s, hs⟩ := List.mem_iff_getElem?.1 hm
    obtain ⟨m0, g1, g2, _⟩ := h3 s m hs
    have : m.required = m0.required := by rw [g2]
    rw [this, h1]
    exact hok.ne m0 (List.mem_of_getElem? g1)
  · intro i m e hm he
    obtain ⟨m0, g1, g2, _⟩ := h3 i m hm
    rw [h1] at he ⊢
    have r : m.required = m0.required := by rw [g2]
    have a : m.allocated = m0.allocated := by rw [g2]
    have st : m.start = m0.start := by rw [g2]
    have ba : m.base = m0.base := by rw [g2]
    rcases hok.maps i m0 e g1 he with h | ⟨s, h⟩
    · left; rw [st, ba, r]; exact h
    · right
      exact ⟨s, by rw [st]; exact h.start, by rw [a]; exact h.box, by rw [r, a]; exact h.sub,
        by rw [ba, r]; exact h.base⟩

/-- Mapping `j` of the new list is untouched, or lives in the allocation of
an old mapping marked as re-used for `j`, at the same addresses. -/
def Reused (to0 fr0 to fr : MList) (j : Nat) : Prop :=
  (to.maps[j]? = to0.maps[j]? ∧ to.lay.e[j]? = to0.lay.e[j]?) ∨
  ∃ (s : Nat) (m0 m : DMap), fr0.maps[s]? = some m0 ∧ m0.reusedFor = none ∧
    fr.maps[s]? = some m ∧ m.reusedFor = some j ∧
    ∀ tm0, to0.maps[j]? = some tm0 → ∃ tm, to.maps[j]? = some tm ∧ tm.required = tm0.required ∧
      ∀ p, Mem to0.lay.dims tm0.required p →
        ∃ a, to.addr j p = some a ∧ fr0.addr s p = some a

theorem reuseLoop_spec {to0 fr0 : MList} (hfr : fr0.OK)
    (hd : fr0.lay.dims = to0.lay.dims)
    (hfresh : ∀ m ∈ to0.maps, m.start = none) :
    ∀ (n i : Nat) (to fr : MList), i + n = to0.maps.length → to.OK → to.lay.dims = to0.lay.dims →
      to.maps.length = to0.maps.length →
      SameMaps fr0 fr →
      (∀ j, j < i → Reused to0 fr0 to fr j) →
      (∀ j, i ≤ j → to.maps[j]? = to0.maps[j]? ∧ to.lay.e[j]? = to0.lay.e[j]?) →
      ∃ to' fr', reuseLoop n i to fr = some (to', fr') ∧ to'.OK ∧ to'.lay.dims = to0.lay.dims ∧
        to'.maps.length = to0.maps.length ∧
        SameMaps fr0 fr' ∧ ∀ j, j < to0.maps.length → Reused to0 fr0 to' fr' j := by
  intro n
  induction n with
  | zero =>
    intro i to fr hin hok hdims hlen hsame hdone _
    exact ⟨to, fr, rfl, hok, hdims, hlen, hsame, fun j hj => hdone j (by omega)⟩
  | succ n ih =>
    intro i to fr hin hok hdims hlen hsame hdone hrest
    have hfrok := hsame.ok hfr
    have hilt : i < to.lay.e.length := by rw [hok.len]; omega
    obtain ⟨r, hr, hspec⟩ := findReuse_spec (lay := to.lay) (i := i) (old := fr.lay) fr.maps hilt
      hfrok.len fr.maps 0 rfl
    unfold reuseLoop
    rw [hr]
    cases r with
    | none =>
      simp only
      refine ih (i + 1) to fr (by omega) hok hdims hlen hsame ?_ (fun j hj => hrest j (by omega))
      intro j hj
      by_cases hji : j = i
      · subst hji; exact .inl (hrest j (by omega))
      · exact hdone j (by omega)
    | some v =>
      obtain ⟨lay', s, m⟩ := v
      obtain ⟨hm, hbase, hreu, hrl⟩ := hspec lay' s m rfl
      obtain ⟨eNew, eOld, he1, he2, hw, hld, hle⟩ := reuseLex_true hrl
      simp only
      have htm : to.maps[i]? = some (to.maps[i]'(by omega)) := List.getElem?_eq_getElem _
      generalize to.maps[i]'(by omega) = tm at htm
      rw [htm]
      simp only
      have htm0 : to0.maps[i]? = some tm := by rw [← (hrest i (by omega)).1]; exact htm
      have htmne := hok.ne tm (List.mem_of_getElem? htm)
      -- entry of the new mapping
      have hnew : eNew.box = tm.required := by
        rcases hok.maps i tm eNew htm he1 with ⟨_, _, g⟩ | ⟨s', g⟩
        · exact g
        · have := hfresh tm (List.mem_of_getElem? htm0)
          rw [g.start] at this; simp at this
      -- the old mapping has memory
      obtain ⟨sa, hal⟩ : ∃ s', Allocd fr.lay s m eOld s' := by
        rcases hfrok.maps s m eOld hm he2 with ⟨_, g, _⟩ | g
        · exact absurd g hbase
        · exact g
      have hfd : fr.lay.dims = to.lay.dims := by rw [hsame.1, hd, hdims]
      rw [hnew] at hw
      have hsub := subset_of_within hw htmne
      have hgo : Good to.lay.dims eOld := by
        rw [← hfd]; exact good_of_getElem? hfrok.good he2
      have hlo : Mem to.lay.dims tm.required tm.required.lo :=
        mem_lo_of_nonempty _ _ ((not_isEmpty_iff _ _).2 htmne)
      have hset : (to.lay.e.set i eOld)[i]? = some eOld := List.getElem?_set_self hilt
      have hoff : ∀ p, Mem to.lay.dims eOld.box p →
          offsetLex lay' i p = some (eOld.off to.lay.dims p) := by
        intro p hp
        have := off_bounds hgo hp
        simp [offsetLex, hle, hld, hilt, this]
      have hemb : initEmbedded lay' i tm m = some { tm with
          start := some sa, allocated := m.allocated,
          base := some (sa + eOld.off to.lay.dims tm.required.lo) } := by
        unfold initEmbedded
        rw [hal.start, hoff _ (hsub _ hlo), hld, ← hal.box]
        simp [hw]
      rw [hemb]
      simp only
      have hmaplt : i < to.maps.length := by omega
      have hslt := (List.getElem?_eq_some_iff.1 hm).1
      have hsame' : SameMaps fr0
          { fr with maps := fr.maps.set s { m with reusedFor := some i } } := by
        refine ⟨hsame.1, by simp [hsame.2.1], ?_⟩
        intro s' m' hm'
        simp only at hm'
        by_cases hss : s = s'
        · subst hss
          rw [List.getElem?_set_self hslt] at hm'
          simp only [Option.some.injEq] at hm'
          obtain ⟨m0, g1, g2, g3⟩ := hsame.2.2 s m hm
          refine ⟨m0, g1, ?_, ?_⟩
          · rw [← hm']
            simp only
            conv => lhs; rw [g2]
          · intro hne
            exact absurd ((g3 hne).symm.trans hreu) hne
        · rw [List.getElem?_set_ne hss] at hm'
          exact hsame.2.2 s' m' hm'
      obtain ⟨m0, hm0, hm0e, hm0r⟩ := hsame.2.2 s m hm
      refine ih (i + 1) _ _ (by omega) ?_ (by simp [hld, hdims]) (by simp [hlen]) hsame' ?_ ?_
      · -- consistency of the new list
        refine ⟨?_, ?_, ?_, ?_⟩
        · intro e he
          simp only at he ⊢
          rw [hle] at he
          rw [hld]
          rcases List.mem_or_eq_of_mem_set he with g | g
          · exact hok.good e g
          · subst g; exact hgo
        · simp [hle, hok.len]
        · intro m' hm'
          simp only at hm' ⊢
          rw [hld]
          rcases List.mem_or_eq_of_mem_set hm' with g | g
          · exact hok.ne m' g
          · subst g; exact htmne
        · intro j m' e hj he
          simp only at hj he ⊢
          rw [hle] at he
          by_cases hij : i = j
          · subst hij
            rw [List.getElem?_set_self hmaplt] at hj
            rw [hset] at he
            simp only [Option.some.injEq] at hj he
            subst hj; subst he
            right
            exact ⟨sa, rfl, hal.box, by rw [hld, ← hal.box]; exact hsub, by rw [hld]⟩
          · rw [List.getElem?_set_ne hij] at hj he
            rcases hok.maps j m' e hj he with g | ⟨s', g⟩
            · exact .inl g
            · exact .inr ⟨s', g.start, g.box, by rw [hld]; exact g.sub, by rw [hld]; exact g.base⟩
      · intro j hj
        by_cases hji : j = i
        · subst hji
          right
          refine ⟨s, m0, { m with reusedFor := some j }, hm0, ?_, ?_, rfl, ?_⟩
          · by_cases hn : m0.reusedFor = none
            · exact hn
            · exact (hm0r hn).symm.trans hreu
          · simp only; exact List.getElem?_set_self hslt
          · intro tm0 ht0
            rw [htm0] at ht0
            simp only [Option.some.injEq] at ht0
            subst ht0
            refine ⟨{ tm with
                start := some sa, allocated := m.allocated,
                base := some (sa + eOld.off to.lay.dims tm.required.lo) },
              List.getElem?_set_self hmaplt, rfl, ?_⟩
            intro p hp
            rw [← hdims] at hp
            have hpo := hsub p hp
            have hfo : offsetLex fr.lay s p = some (eOld.off to.lay.dims p) := by
              have := off_bounds hgo hpo
              simp [offsetLex, he2, hfd, this]
            refine ⟨sa + eOld.off to.lay.dims p, ?_, ?_⟩
            · simp [MList.addr, hmaplt, hoff p hpo]
            · rw [← hsame.addr]
              simp [MList.addr, hm, hal.start, hfo]
        · rcases hdone j (by omega) with ⟨g1, g2⟩ | ⟨s', k0, k, g1, g2, g3, g4, g5⟩
          · left
            simp only
            rw [List.getElem?_set_ne (by omega), hle, List.getElem?_set_ne (by omega)]
            exact ⟨g1, g2⟩
          · right
            have hss : s ≠ s' := by
              intro h; subst h
              rw [hm] at g3
              simp only [Option.some.injEq] at g3
              subst g3
              rw [hreu] at g4; simp at g4
            refine ⟨s', k0, k, g1, g2, ?_, g4, ?_⟩
            · simp only; rw [List.getElem?_set_ne hss]; exact g3
            · intro tm0 ht0
              obtain ⟨tm', q1, q2, q3⟩ := g5 tm0 ht0
              refine ⟨tm', ?_, q2, ?_⟩
              · simp only; rw [List.getElem?_set_ne (by omega)]; exact q1
              · intro p hp
                obtain ⟨a, a1, a2⟩ := q3 p hp
                refine ⟨a, ?_, a2⟩
                rw [← a1]
                simp only [MList.addr]
                rw [List.getElem?_set_ne (by omega)]
                simp only [offsetLex, hle, hld]
                rw [List.getElem?_set_ne (by omega)]
      · intro j hj
        simp only
        rw [List.getElem?_set_ne (by omega), hle, List.getElem?_set_ne (by omega)]
        exact hrest j (by omega)

end Laik.Lay
