import Verif.Model.ReserveLemmas
import Verif.Model.MapMemLemmas
/-!
# C42 Reserved memory
-/

namespace Laik
open Lay Res

theorem grpOf_fields {k n : Nat} {own : List TR} {g : Grp} (h : grpOf k own n = some g) :
    g.part = k ∧ g.mapNo = n := by
  unfold grpOf at h
  split at h
  · cases h
  · split at h
    · cases h
    · injection h with h; subst h; exact ⟨rfl, rfl⟩

theorem grpsOf_mem {k : Nat} {own : List TR} : ∀ {ns : List Nat} {gs : List Grp},
    grpsOf k own ns = some gs → ∀ g, g ∈ gs ↔ ∃ n ∈ ns, grpOf k own n = some g := by
  intro ns
  induction ns with
  | nil => intro gs h; simp [grpsOf] at h; subst h; simp
  | cons n ns ih =>
    intro gs h g
    simp only [grpsOf] at h
    split at h
    · rename_i a b ha hb
      injection h with h
      subst h
      rw [List.mem_cons, ih hb]
      constructor
      · rintro (rfl | ⟨m, hm, hm'⟩)
        · exact ⟨n, by simp, ha⟩
        · exact ⟨m, by simp [hm], hm'⟩
      · rintro ⟨m, hm, hm'⟩
        rcases List.mem_cons.mp hm with rfl | hm
        · rw [ha] at hm'; injection hm' with hm'; exact Or.inl hm'.symm
        · exact Or.inr ⟨m, hm, hm'⟩
    · cases h

theorem grpList_mem : ∀ {parts : List (List TR)} {k : Nat} {gl : List Grp},
    grpList k parts = some gl → ∀ g, g ∈ gl ↔ ∃ i own, parts[i]? = some own ∧
      g.mapNo < mapCount own ∧ grpOf (k + i) own g.mapNo = some g := by
  intro parts
  induction parts with
  | nil => intro k gl h; simp [grpList] at h; subst h; simp
  | cons p parts ih =>
    intro k gl h g
    simp only [grpList] at h
    split at h
    · rename_i a b ha hb
      injection h with h
      subst h
      rw [List.mem_append, grpsOf_mem ha, ih hb]
      constructor
      · rintro (⟨n, hn, hn'⟩ | ⟨i, own, h1, h2, h3⟩)
        · have hf := grpOf_fields hn'
          rw [List.mem_range] at hn
          refine ⟨0, p, rfl, by rw [hf.2]; exact hn, ?_⟩
          rw [hf.2]; exact hn'
        · refine ⟨i + 1, own, by simpa using h1, h2, ?_⟩
          rw [show k + (i + 1) = k + 1 + i by omega]; exact h3
      · rintro ⟨i, own, h1, h2, h3⟩
        cases i with
        | zero =>
          simp only [List.getElem?_cons_zero, Option.some.injEq] at h1
          subst h1
          exact Or.inl ⟨g.mapNo, List.mem_range.mpr h2, h3⟩
        | succ i =>
          refine Or.inr ⟨i, own, by simpa using h1, h2, ?_⟩
          rw [show k + 1 + i = k + (i + 1) by omega]; exact h3
    · cases h

/-- A call of `laik_reservation_alloc` which returns: `gl` is the list of
groups in an order which `qsort` may give. -/
structure Reservation (d : Dims) (parts : List (List TR)) (r : Reserved) : Prop where
  call : ∃ gl gl0, grpList 0 parts = some gl0 ∧ gl.Perm gl0 ∧
    gl.Pairwise (fun a b => a.tag ≤ b.tag) ∧ reserve d parts gl = some r

/-- `t` is a task range of map `n` of partitioning `k`. -/
def InRMap (parts : List (List TR)) (k n : Nat) (t : TR) : Prop :=
  ∃ own, parts[k]? = some own ∧ n < mapCount own ∧ t ∈ own ∧ t.mapNo = (n : Int)

/-- All task ranges with a tag, over all partitionings of the reservation
(maps which exist). -/
def tagBoxes (parts : List (List TR)) (tag : Int) : List Box :=
  (parts.flatMap fun own =>
    own.filter fun t => 0 ≤ t.mapNo ∧ t.mapNo < mapCount own ∧ t.tag = tag).map TR.box

theorem reservation_spec {d : Dims} {parts : List (List TR)} {r : Reserved}
    (h : Reservation d parts r) :
    ∃ tagOf : Nat → Int,
      (∀ a b, a < r.bases.length → b < r.bases.length → (tagOf a = tagOf b ↔ a = b)) ∧
      (∀ a b, r.bases[a]? = some b → Hull d (tagBoxes parts (tagOf a)) b) ∧
      (∀ k n t, InRMap parts k n t → ∃ m ∈ r.maps, m.part = k ∧ m.mapNo = n) ∧
      (∀ m ∈ r.maps, m.base < r.bases.length ∧ ∃ own, parts[m.part]? = some own ∧
        m.mapNo < mapCount own ∧
        Hull d ((mapRanges own m.mapNo).map TR.box) m.required ∧
        (∀ b, r.bases[m.base]? = some b → m.required.within d b = true ∧
          ∀ p, Mem d m.required p → Mem d b p) ∧
        ∀ t ∈ mapRanges own m.mapNo, t.tag = tagOf m.base) := by
  obtain ⟨gl, gl0, hg0, hperm, hsort, hres⟩ := h.call
  unfold reserve at hres
  split at hres
  · cases hres
  · rename_i ng hng
    split at hres
    · cases hres
    · rename_i bs ms hlink
      split at hres
      · cases hres
      · rename_i bases hbases
        injection hres with hres
        subst hres
        have hfst := numberGrps_fst hng
        obtain ⟨hn1, hn2, hn3⟩ := number_spec hsort hng
        obtain ⟨hl1, hl2, hl3⟩ := linkLoop_spec (S := fun _ => []) (by
          intro r o hr
          rw [List.getElem?_replicate] at hr
          split at hr
          · injection hr with hr; exact Or.inl ⟨rfl, hr.symm⟩
          · cases hr) hlink
        have hbs := baseBoxes_spec hbases
        have hlen : bases.length = mCount ng := by
          have := congrArg List.length hbs
          simp at this
          rw [← this, hl2]; simp
        -- groups and mappings
        have hmem1 : ∀ m ∈ ms, ∃ x ∈ ng, Linked d parts x m := by
          intro m hm
          obtain ⟨hlen', hget⟩ := List.forall₂_iff_get.mp hl1
          obtain ⟨i, hi, rfl⟩ := List.getElem_of_mem hm
          exact ⟨ng[i]'(by omega), List.getElem_mem _, hget i (by omega) hi⟩
        have hmem2 : ∀ x ∈ ng, ∃ m ∈ ms, Linked d parts x m := by
          intro x hx
          obtain ⟨hlen', hget⟩ := List.forall₂_iff_get.mp hl1
          obtain ⟨i, hi, rfl⟩ := List.getElem_of_mem hx
          exact ⟨ms[i]'(by omega), List.getElem_mem _, hget i hi (by omega)⟩
        have hgl : ∀ g, g ∈ gl ↔ ∃ own, parts[g.part]? = some own ∧
            g.mapNo < mapCount own ∧ grpOf g.part own g.mapNo = some g := by
          intro g
          rw [hperm.mem_iff, grpList_mem hg0]
          constructor
          · rintro ⟨i, own, h1, h2, h3⟩
            have := (grpOf_fields h3).1
            rw [Nat.zero_add] at this h3
            rw [this]
            exact ⟨own, h1, h2, h3⟩
          · rintro ⟨own, h1, h2, h3⟩
            exact ⟨g.part, own, h1, h2, by rw [Nat.zero_add]; exact h3⟩
        have hngl : ∀ x ∈ ng, x.1 ∈ gl := by
          intro x hx; rw [← hfst]; exact List.mem_map.mpr ⟨x, hx, rfl⟩
        -- tag of a number
        have hex : ∀ a, ∃ g : Int, a < mCount ng → ∃ x ∈ ng, x.2.toNat = a ∧ x.1.tag = g := by
          intro a
          by_cases ha : a < mCount ng
          · obtain ⟨x, hx, hx'⟩ := hn3 a ha
            exact ⟨x.1.tag, fun _ => ⟨x, hx, hx', rfl⟩⟩
          · exact ⟨0, fun h => absurd h ha⟩
        obtain ⟨tagOf, htag⟩ := Classical.axiomOfChoice hex
        have htagx : ∀ x ∈ ng, tagOf x.2.toNat = x.1.tag := by
          intro x hx
          obtain ⟨y, hy, hy1, hy2⟩ := htag _ (hn2 x hx).2
          rw [← hy2]
          exact (hn1 y hy x hx).2 hy1
        have hlinked : ∀ m ∈ ms, m.base < mCount ng ∧ ∃ own, parts[m.part]? = some own ∧
            m.mapNo < mapCount own ∧
            Hull d ((mapRanges own m.mapNo).map TR.box) m.required ∧
            ∀ t ∈ mapRanges own m.mapNo, t.tag = tagOf m.base := by
          intro m hm
          obtain ⟨x, hx, h1, h2, h3, own, h4, h5⟩ := hmem1 m hm
          obtain ⟨own', h6, h7, h8⟩ := (hgl x.1).1 (hngl x hx)
          rw [h4] at h6
          injection h6 with h6
          subst h6
          obtain ⟨h9, h10⟩ := coverLoop_none_spec h5
          rw [h1, h2, h3]
          exact ⟨(hn2 x hx).2, own, h4, h7, h9, fun t ht => (h10 t ht).trans (htagx x hx).symm⟩
        have hinmap : ∀ k n t, InRMap parts k n t → ∃ m ∈ ms, m.part = k ∧ m.mapNo = n := by
          rintro k n t ⟨own, h1, h2, h3, h4⟩
          have hgs : ∃ g, grpOf k own n = some g := by
            have : ∃ g ∈ gl0, g.part = k ∧ g.mapNo = n := by
              clear hperm hgl hngl hmem1 hmem2 hlinked
              -- the list was built, so every map has its group
              have gen : ∀ (parts : List (List TR)) (j : Nat) (gl0 : List Grp) (i : Nat),
                  grpList j parts = some gl0 → parts[i]? = some own →
                  ∃ g ∈ gl0, g.part = j + i ∧ g.mapNo = n := by
                intro parts
                induction parts with
                | nil => intro j gl0 i _ h; simp at h
                | cons p parts ih =>
                  intro j gl0 i hgl hi
                  simp only [grpList] at hgl
                  split at hgl
                  · rename_i a b ha hb
                    injection hgl with hgl
                    subst hgl
                    cases i with
                    | zero =>
                      simp only [List.getElem?_cons_zero, Option.some.injEq] at hi
                      subst hi
                      have : ∀ (ns : List Nat) (gs : List Grp), grpsOf j p ns = some gs → n ∈ ns →
                          ∃ g ∈ gs, grpOf j p n = some g := by
                        intro ns
                        induction ns with
                        | nil => intro gs _ h; cases h
                        | cons q ns ih2 =>
                          intro gs hgs hq
                          simp only [grpsOf] at hgs
                          split at hgs
                          · rename_i g gs' hg hgs'
                            injection hgs with hgs
                            subst hgs
                            rcases List.mem_cons.mp hq with rfl | hq
                            · exact ⟨g, by simp, hg⟩
                            · obtain ⟨g', h5, h6⟩ := ih2 gs' hgs' hq
                              exact ⟨g', by simp [h5], h6⟩
                          · cases hgs
                      obtain ⟨g, hg1, hg2⟩ := this _ _ ha (List.mem_range.mpr h2)
                      have := grpOf_fields hg2
                      exact ⟨g, by simp [hg1], by omega, this.2⟩
                    | succ i =>
                      obtain ⟨g, hg1, hg2, hg3⟩ := ih (j + 1) b i hb (by simpa using hi)
                      exact ⟨g, by simp [hg1], by omega, hg3⟩
                  · cases hgl
              obtain ⟨g, hg1, hg2, hg3⟩ := gen parts 0 gl0 k hg0 h1
              exact ⟨g, hg1, by omega, hg3⟩
            obtain ⟨g, hg1, hg2, hg3⟩ := this
            obtain ⟨own', h5, h6, h7⟩ := (hgl g).1 (hperm.mem_iff.mpr hg1)
            rw [hg2, h1] at h5
            injection h5 with h5
            subst h5
            rw [hg2, hg3] at h7
            exact ⟨g, h7⟩
          obtain ⟨g, hg⟩ := hgs
          have hf := grpOf_fields hg
          have : g ∈ gl := (hgl g).2 ⟨own, by rw [hf.1]; exact h1, by rw [hf.2]; exact h2, by
            rw [hf.1, hf.2]; exact hg⟩
          rw [← hfst] at this
          obtain ⟨x, hx, rfl⟩ := List.mem_map.mp this
          obtain ⟨m, hm, hl⟩ := hmem2 x hx
          exact ⟨m, hm, hl.1.trans hf.1, hl.2.1.trans hf.2⟩
        have hbase : ∀ a b, bases[a]? = some b →
            Hull d ((ms.filter fun m => m.base = a).map PMap.required) b := by
          intro a b hb
          have : bs[a]? = some (some b) := by rw [hbs]; simp [hb]
          rcases hl3 a _ this with ⟨-, h2⟩ | ⟨c, h1, h2⟩
          · cases h2
          · injection h1 with h1; subst h1; simpa using h2
        refine ⟨tagOf, ?_, ?_, hinmap, ?_⟩
        · intro a b ha hb
          simp only [] at ha hb
          rw [hlen] at ha hb
          obtain ⟨x, hx, hx1, hx2⟩ := htag a ha
          obtain ⟨y, hy, hy1, hy2⟩ := htag b hb
          rw [← hx2, ← hy2, ← hx1, ← hy1]
          exact hn1 x hx y hy
        · intro a b hb
          have halt : a < mCount ng := by
            rw [← hlen]; exact (List.getElem?_eq_some_iff.mp hb).1
          refine hull_flat (T := (ms.filter fun m => m.base = a).map fun m =>
            ((mapRanges (parts.getD m.part []) m.mapNo).map TR.box, m.required)) ?_ ?_ ?_
          · intro x hx
            obtain ⟨m, hm, rfl⟩ := List.mem_map.mp hx
            obtain ⟨-, own, h1, h2, h3, h4⟩ := hlinked m (List.mem_of_mem_filter hm)
            simp only [List.getD_eq_getElem?_getD, h1, Option.getD_some]
            exact h3
          · simpa [List.map_map, Function.comp_def] using hbase a b hb
          · intro e
            unfold tagBoxes
            simp only [List.mem_map, List.mem_flatMap, List.mem_filter, decide_eq_true_eq]
            constructor
            · rintro ⟨t, ⟨own, hown, ht, h1, h2, h3⟩, rfl⟩
              obtain ⟨k, hk⟩ := List.mem_iff_getElem?.1 hown
              have hin : InRMap parts k t.mapNo.toNat t := ⟨own, hk, by omega, ht, by omega⟩
              obtain ⟨m, hm, hm1, hm2⟩ := hinmap _ _ _ hin
              obtain ⟨hb', own', h4, h5, h6, h7⟩ := hlinked m hm
              rw [hm1, hk] at h4
              injection h4 with h4
              subst h4
              have htm : t ∈ mapRanges own m.mapNo := by
                unfold mapRanges
                rw [List.mem_filter]
                refine ⟨ht, ?_⟩
                simp; omega
              have hma : m.base = a := by
                have := h7 t htm
                rw [h3] at this
                obtain ⟨x, hx, hx1, hx2⟩ := htag a halt
                obtain ⟨y, hy, hy1, hy2⟩ := htag m.base hb'
                have := (hn1 y hy x hx).1 (by omega)
                omega
              refine ⟨_, ⟨m, ⟨hm, hma⟩, rfl⟩, ?_⟩
              simp only [List.getD_eq_getElem?_getD, hm1, hk, Option.getD_some]
              exact List.mem_map.mpr ⟨t, htm, rfl⟩
            · rintro ⟨x, ⟨m, ⟨hm, hma⟩, rfl⟩, he⟩
              obtain ⟨hb', own, h4, h5, h6, h7⟩ := hlinked m hm
              simp only [List.getD_eq_getElem?_getD, h4, Option.getD_some] at he
              obtain ⟨t, ht, rfl⟩ := List.mem_map.mp he
              have htag' := h7 t ht
              unfold mapRanges at ht
              rw [List.mem_filter] at ht
              have h8 : t.mapNo = (m.mapNo : Int) := by simpa using ht.2
              refine ⟨t, ⟨own, List.mem_of_getElem? h4, ht.1, by omega, by omega, ?_⟩, rfl⟩
              rw [htag', hma]
        · intro m hm
          obtain ⟨hb', own, h4, h5, h6, h7⟩ := hlinked m hm
          refine ⟨by rw [hlen]; exact hb', own, h4, h5, h6, ?_, h7⟩
          intro b hb
          have hmem : m.required ∈ (ms.filter fun x => x.base = m.base).map PMap.required :=
            List.mem_map.mpr ⟨m, by simp [hm], rfl⟩
          exact ⟨(hbase _ _ hb).within hmem, fun p hp => (hbase _ _ hb).mem hmem hp⟩

theorem cell_spec {d : Dims} {b : Box} (hb : ∃ p, Mem d b p) (n : Nat) (req : Box) (off : Int)
    {p : Idx} (hp : Mem d b p) :
    ∃ o cnt, (RMap.cell d ⟨n, req, b, off⟩ p) = some (n, o) ∧ b.size d = some cnt ∧
      0 ≤ o ∧ o < cnt := by
  obtain ⟨l, hl, -⟩ := (C30_created d [b]).2 (by simpa using hb)
  obtain ⟨op, oq, cnt, h1, h2, h3, h4, h5, h6, h7⟩ := C30_offsets hl (n := 0) (b := b) rfl hp hp
  refine ⟨op, cnt, ?_, h3, h4, h5⟩
  simp only [RMap.cell, hl, h1, Option.map_some]

/-- The mapping of a map of a partitioning, from the result of the calculation. -/
theorem map_spec {d : Dims} {parts : List (List TR)} {r : Reserved} (h : Reservation d parts r)
    {k n : Nat} {t : TR} (ht : InRMap parts k n t) :
    ∃ m own b, r.map d k n = some m ∧ parts[k]? = some own ∧ r.bases[m.base]? = some b ∧
      m.allocated = b ∧ Hull d ((mapRanges own n).map TR.box) m.required ∧
      (∀ p, Mem d m.required p → Mem d b p) ∧
      Hull d (tagBoxes parts t.tag) b ∧ t ∈ mapRanges own n ∧
      m.cell d m.required.lo = some (m.base, m.baseOff) := by
  obtain ⟨tagOf, h1, h2, h3, h4⟩ := reservation_spec h
  obtain ⟨pm, hpm, hpm1, hpm2⟩ := h3 k n t ht
  unfold Reserved.map
  rcases hf : r.maps.find? (fun m => m.part = k ∧ m.mapNo = n) with _ | m
  · exfalso
    have := List.find?_eq_none.mp hf pm hpm
    simp [hpm1, hpm2] at this
  · have hm := List.mem_of_find?_eq_some hf
    have hmk : m.part = k ∧ m.mapNo = n := by simpa using List.find?_some hf
    obtain ⟨hb, own, h5, h6, h7, h8, h9⟩ := h4 m hm
    rw [hmk.1] at h5
    rw [hmk.2] at h6 h7 h9
    obtain ⟨b, hbb⟩ : ∃ b, r.bases[m.base]? = some b := ⟨_, List.getElem?_eq_getElem hb⟩
    obtain ⟨hw, hsub⟩ := h8 b hbb
    have hlo := mem_lo_of_nonempty d m.required ((not_isEmpty_iff d _).2 h7.exists_mem)
    have hbne : ∃ p, Mem d b p := ⟨_, hsub _ hlo⟩
    obtain ⟨l, hl, -⟩ := (C30_created d [b]).2 (by simpa using hbne)
    obtain ⟨op, oq, cnt, g1, g2, g3, g4, g5, g6, g7⟩ :=
      C30_offsets hl (n := 0) (b := b) rfl (hsub _ hlo) (hsub _ hlo)
    obtain ⟨own', e1, e2, e3, e4⟩ := ht
    rw [h5] at e1
    injection e1 with e1
    subst e1
    have htm : t ∈ mapRanges own n := by
      unfold mapRanges; rw [List.mem_filter]; exact ⟨e3, by simp [e4]⟩
    have htag : t.tag = tagOf m.base := h9 t htm
    refine ⟨⟨m.base, m.required, b, op⟩, own, b, ?_, h5, hbb, rfl, h7, hsub, ?_, htm, ?_⟩
    · rw [hf]
      simp only [embedRes, hbb, hl, hw, not_true_eq_false, if_false, g1]
    · rw [htag]; exact h2 _ _ hbb
    · simp only [RMap.cell, hl, g1, Option.map_some]

/-- Each index of each range of a partitioning in a reservation lies within
the required range of its mapping, and has a cell within the memory reserved
for its tag. -/
theorem C42_within {d : Dims} {parts : List (List TR)} {r : Reserved} (h : Reservation d parts r)
    {k n : Nat} {t : TR} (ht : InRMap parts k n t) {p : Idx} (hp : Mem d t.box p) :
    ∃ m b o cnt, r.map d k n = some m ∧ Mem d m.required p ∧ r.bases[m.base]? = some b ∧
      m.cell d p = some (m.base, o) ∧ b.size d = some cnt ∧ 0 ≤ o ∧ o < cnt := by
  obtain ⟨m, own, b, h1, h2, h3, h4, h5, h6, h7, h8, h9⟩ := map_spec h ht
  have hreq : Mem d m.required p := h5.mem (List.mem_map.mpr ⟨t, h8, rfl⟩) hp
  obtain ⟨o, cnt, g1, g2, g3, g4⟩ := cell_spec h7.exists_mem m.base m.required m.baseOff (h6 p hreq)
  refine ⟨m, b, o, cnt, h1, hreq, h3, ?_, g2, g3, g4⟩
  rw [← h4] at g1
  exact g1

/-- `base` of a mapping is the cell of the first required index. -/
theorem C42_base {d : Dims} {parts : List (List TR)} {r : Reserved} (h : Reservation d parts r)
    {k n : Nat} {t : TR} (ht : InRMap parts k n t) :
    ∃ m, r.map d k n = some m ∧ m.cell d m.required.lo = some (m.base, m.baseOff) := by
  obtain ⟨m, own, b, h1, h2, h3, h4, h5, h6, h7, h8, h9⟩ := map_spec h ht
  exact ⟨m, h1, h9⟩

/-- The memory reserved for a tag is the smallest box with all ranges of all
partitionings with this tag. -/
theorem C42_least {d : Dims} {parts : List (List TR)} {r : Reserved} (h : Reservation d parts r)
    {k n : Nat} {t : TR} (ht : InRMap parts k n t) :
    ∃ m b, r.map d k n = some m ∧ r.bases[m.base]? = some b ∧
      (∀ c ∈ tagBoxes parts t.tag, SubsetOf d c b) ∧
      ∀ e, (∀ c ∈ tagBoxes parts t.tag, SubsetOf d c e) → SubsetOf d b e := by
  obtain ⟨m, own, b, h1, h2, h3, h4, h5, h6, h7, h8, h9⟩ := map_spec h ht
  exact ⟨m, b, h1, h3, fun c hc p hp => h7.mem hc hp, fun e he => h7.least he⟩

theorem base_iff {d : Dims} {parts : List (List TR)} {r : Reserved} (h : Reservation d parts r)
    {k n k' n' : Nat} {t t' : TR} (ht : InRMap parts k n t) (ht' : InRMap parts k' n' t') :
    ∃ m m', r.map d k n = some m ∧ r.map d k' n' = some m' ∧
      (m.base = m'.base ↔ t.tag = t'.tag) ∧ (m.base = m'.base → m.allocated = m'.allocated) := by
  obtain ⟨tagOf, h1, h2, h3, h4⟩ := reservation_spec h
  have key : ∀ {k n : Nat} {t : TR}, InRMap parts k n t → ∃ m, r.map d k n = some m ∧
      m.base < r.bases.length ∧ t.tag = tagOf m.base ∧ r.bases[m.base]? = some m.allocated := by
    intro k n t ht
    obtain ⟨m, own, b, g1, g2, g3, g4, g5, g6, g7, g8, g9⟩ := map_spec h ht
    refine ⟨m, g1, (List.getElem?_eq_some_iff.mp g3).1, ?_, by rw [g4]; exact g3⟩
    unfold Reserved.map at g1
    rcases hf : r.maps.find? (fun m => m.part = k ∧ m.mapNo = n) with _ | pm
    · rw [hf] at g1; cases g1
    · rw [hf] at g1
      have hpm := List.mem_of_find?_eq_some hf
      have hmk : pm.part = k ∧ pm.mapNo = n := by simpa using List.find?_some hf
      obtain ⟨hb, own', e1, e2, e3, e4, e5⟩ := h4 pm hpm
      rw [hmk.1, g2] at e1
      injection e1 with e1
      subst e1
      rw [hmk.2] at e5
      have hbase : m.base = pm.base := by
        simp only [embedRes] at g1
        split at g1
        · cases g1
        · split at g1
          · cases g1
          · split at g1
            · cases g1
            · split at g1
              · cases g1
              · injection g1 with g1; rw [← g1]
      rw [hbase]
      exact e5 t g8
  obtain ⟨m, a1, a2, a3, a4⟩ := key ht
  obtain ⟨m', b1, b2, b3, b4⟩ := key ht'
  refine ⟨m, m', a1, b1, ?_, ?_⟩
  · rw [a3, b3]; exact (h1 _ _ a2 b2).symm
  · intro e; rw [e, b4] at a4; injection a4 with a4; exact a4.symm

/-- Same tag: the same index has the same memory cell, in whatever
partitioning. -/
theorem C42_same_tag {d : Dims} {parts : List (List TR)} {r : Reserved} (h : Reservation d parts r)
    {k n k' n' : Nat} {t t' : TR} (ht : InRMap parts k n t) (ht' : InRMap parts k' n' t')
    (htag : t.tag = t'.tag) :
    ∃ m m', r.map d k n = some m ∧ r.map d k' n' = some m' ∧ ∀ p, m.cell d p = m'.cell d p := by
  obtain ⟨m, m', h1, h2, h3, h4⟩ := base_iff h ht ht'
  have hb := h3.2 htag
  have ha := h4 hb
  refine ⟨m, m', h1, h2, fun p => ?_⟩
  unfold RMap.cell
  rw [hb, ha]

/-- Different tags: no memory cell is shared. -/
theorem C42_different_tag {d : Dims} {parts : List (List TR)} {r : Reserved}
    (h : Reservation d parts r) {k n k' n' : Nat} {t t' : TR} (ht : InRMap parts k n t)
    (ht' : InRMap parts k' n' t') (htag : t.tag ≠ t'.tag) :
    ∃ m m', r.map d k n = some m ∧ r.map d k' n' = some m' ∧
      ∀ p q c, m.cell d p = some c → m'.cell d q ≠ some c := by
  obtain ⟨m, m', h1, h2, h3, h4⟩ := base_iff h ht ht'
  refine ⟨m, m', h1, h2, ?_⟩
  intro p q c hc hc'
  have hb : m.base = c.1 := by
    unfold RMap.cell at hc
    split at hc
    · cases hc
    · rename_i l _
      rcases ho : offsetLex l 0 p with _ | o
      · rw [ho] at hc; cases hc
      · rw [ho] at hc; simp at hc; rw [← hc]
  have hb' : m'.base = c.1 := by
    unfold RMap.cell at hc'
    split at hc'
    · cases hc'
    · rename_i l _
      rcases ho : offsetLex l 0 q with _ | o
      · rw [ho] at hc'; cases hc'
      · rw [ho] at hc'; simp at hc'; rw [← hc']
  exact htag (h3.1 (by rw [hb, hb']))

/-- Different indexes of a mapping have different cells. -/
theorem C42_injective {d : Dims} {parts : List (List TR)} {r : Reserved} (h : Reservation d parts r)
    {k n : Nat} {t : TR} (ht : InRMap parts k n t) {m : RMap} (hm : r.map d k n = some m)
    {p q : Idx} (hp : Mem d m.required p) (hq : Mem d m.required q) :
    m.cell d p = m.cell d q ↔ canon d p = canon d q := by
  obtain ⟨m', own, b, h1, h2, h3, h4, h5, h6, h7, h8, h9⟩ := map_spec h ht
  rw [hm] at h1
  injection h1 with h1
  subst h1
  obtain ⟨l, hl, -⟩ := (C30_created d [m.allocated]).2 (by
    rw [h4]; simpa using h7.exists_mem)
  obtain ⟨op, oq, cnt, g1, g2, g3, g4, g5, g6, g7⟩ := C30_offsets hl (n := 0) (b := m.allocated) rfl
    (by rw [h4]; exact h6 p hp) (by rw [h4]; exact h6 q hq)
  simp only [RMap.cell, hl, g1, g2, Option.map_some, Option.some.injEq, Prod.mk.injEq, true_and]
  exact g6

/-! ### The allocation succeeds -/

/-- What is required of a partitioning added to a reservation: maps are not
empty, tags are set as the code requires it. -/
structure Reservable (d : Dims) (own : List TR) : Prop where
  maps : ∀ n, n < mapCount own → ∃ t ∈ own, t.mapNo = (n : Int)
  nonempty : ∀ t ∈ own, ∃ p, Mem d t.box p
  sameTag : ∀ t ∈ own, ∀ u ∈ own, t.mapNo = u.mapNo → t.tag = u.tag
  tag : ∀ t ∈ own, 0 ≤ t.tag
  several : mapCount own > 1 → ∀ t ∈ own, 0 < t.tag

theorem mapRanges_ne {d : Dims} {own : List TR} (h : Reservable d own) {n : Nat}
    (hn : n < mapCount own) : ∃ t ts, mapRanges own n = t :: ts ∧ t ∈ own ∧ t.mapNo = (n : Int) := by
  obtain ⟨t, ht, ht'⟩ := h.maps n hn
  have hm : t ∈ mapRanges own n := by unfold mapRanges; rw [List.mem_filter]; exact ⟨ht, by simp [ht']⟩
  rcases hr : mapRanges own n with _ | ⟨u, us⟩
  · rw [hr] at hm; cases hm
  · have : u ∈ mapRanges own n := by rw [hr]; simp
    unfold mapRanges at this
    rw [List.mem_filter] at this
    exact ⟨u, us, rfl, this.1, by simpa using this.2⟩

theorem grpOf_defined {d : Dims} {own : List TR} (h : Reservable d own) (k : Nat) {n : Nat}
    (hn : n < mapCount own) : ∃ g, grpOf k own n = some g ∧ 0 ≤ g.tag := by
  obtain ⟨t, ts, h1, h2, h3⟩ := mapRanges_ne h hn
  unfold grpOf
  rw [h1]
  dsimp only
  rw [if_neg (by rintro ⟨a, b⟩; exact b (h.several a t h2))]
  exact ⟨_, rfl, h.tag t h2⟩

theorem grpsOf_defined {d : Dims} {own : List TR} (h : Reservable d own) (k : Nat) :
    ∀ (ns : List Nat), (∀ n ∈ ns, n < mapCount own) → ∃ gs, grpsOf k own ns = some gs := by
  intro ns
  induction ns with
  | nil => intro _; exact ⟨[], rfl⟩
  | cons n ns ih =>
    intro hns
    obtain ⟨g, hg, -⟩ := grpOf_defined h k (hns n (by simp))
    obtain ⟨gs, hgs⟩ := ih (fun m hm => hns m (by simp [hm]))
    exact ⟨g :: gs, by simp only [grpsOf, hg, hgs]⟩

theorem grpList_defined {d : Dims} : ∀ (parts : List (List TR)) (k : Nat),
    (∀ own ∈ parts, Reservable d own) → ∃ gl, grpList k parts = some gl := by
  intro parts
  induction parts with
  | nil => intro k _; exact ⟨[], rfl⟩
  | cons p parts ih =>
    intro k h
    obtain ⟨a, ha⟩ := grpsOf_defined (h p (by simp)) k (List.range (mapCount p))
      (fun n hn => List.mem_range.mp hn)
    obtain ⟨b, hb⟩ := ih (k + 1) (fun o ho => h o (by simp [ho]))
    exact ⟨a ++ b, by simp only [grpList, ha, hb]⟩

theorem numberGrps_defined : ∀ (gl : List Grp) (last no : Int),
    0 ≤ no → ∃ ng, numberGrps last no gl = some ng := by
  intro gl
  induction gl with
  | nil => intro last no _; exact ⟨[], rfl⟩
  | cons g gl ih =>
    intro last no h0
    have := nextNo_spec g.tag last no
    obtain ⟨ng, hng⟩ := ih g.tag (nextNo g.tag last no) (by omega)
    refine ⟨(g, nextNo g.tag last no) :: ng, ?_⟩
    simp only [numberGrps]
    rw [if_neg (by omega), hng]
    rfl

theorem linkLoop_defined {d : Dims} {parts : List (List TR)} (h : ∀ own ∈ parts, Reservable d own) :
    ∀ (ng : List (Grp × Int)) (bs : List (Option Box)),
    (∀ x ∈ ng, x.2.toNat < bs.length ∧ ∃ own, parts[x.1.part]? = some own ∧
      x.1.mapNo < mapCount own ∧ grpOf x.1.part own x.1.mapNo = some x.1) →
    ∃ r, linkLoop d parts bs ng = some r := by
  intro ng
  induction ng with
  | nil => intro bs _; exact ⟨_, rfl⟩
  | cons x ng ih =>
    obtain ⟨g, no⟩ := x
    intro bs hx
    obtain ⟨h1, own, h2, h3, h4⟩ := hx (g, no) (by simp)
    have hok := h own (List.mem_of_getElem? h2)
    obtain ⟨t, ts, e1, e2, e3⟩ := mapRanges_ne hok h3
    have htag : t.tag = g.tag := by
      unfold grpOf at h4
      rw [e1] at h4
      dsimp only at h4
      split at h4
      · cases h4
      · injection h4 with h4; rw [← h4]
    obtain ⟨b, hb⟩ := coverLoop_defined (d := d) (tag := g.tag) (ts := mapRanges own g.mapNo)
      (cur := none) (by
        intro u hu
        unfold mapRanges at hu
        rw [List.mem_filter] at hu
        have hu2 : u.mapNo = (g.mapNo : Int) := by simpa using hu.2
        exact ⟨(hok.sameTag u hu.1 t e2 (by rw [hu2, e3])).trans htag, hok.nonempty u hu.1⟩)
      (Or.inr (by rw [e1]; simp))
    obtain ⟨⟨bs', ms⟩, hr⟩ := ih (bs.set no.toNat (some (extend d bs[no.toNat] b))) (by
      intro y hy
      rw [List.length_set]
      exact hx y (by simp [hy]))
    refine ⟨(bs', ⟨g.part, g.mapNo, no.toNat, b⟩ :: ms), ?_⟩
    have hcur : bs[no.toNat]? = some bs[no.toNat] := List.getElem?_eq_getElem h1
    simp only [linkLoop, h2, hcur, hb, hr]

theorem baseBoxes_defined {d : Dims} : ∀ (bs : List (Option Box)),
    (∀ o ∈ bs, ∃ b, o = some b ∧ ∃ p, Mem d b p) → ∃ r, baseBoxes d bs = some r := by
  intro bs
  induction bs with
  | nil => intro _; exact ⟨[], rfl⟩
  | cons o bs ih =>
    intro h
    obtain ⟨b, rfl, hb⟩ := h o (by simp)
    obtain ⟨r, hr⟩ := ih (fun x hx => h x (by simp [hx]))
    obtain ⟨n, hn, hz⟩ := size_of_nonempty hb
    exact ⟨b :: r, by simp [baseBoxes, hn, hz, hr]⟩

/-- No assert fails if tags are set as required; for every result of the sort
there is a reservation. -/
theorem C42_succeeds {d : Dims} {parts : List (List TR)} (h : ∀ own ∈ parts, Reservable d own) :
    ∃ gl0, grpList 0 parts = some gl0 ∧
      ∀ gl, gl.Perm gl0 → gl.Pairwise (fun a b => a.tag ≤ b.tag) →
        ∃ r, reserve d parts gl = some r ∧ Reservation d parts r := by
  obtain ⟨gl0, hg0⟩ := grpList_defined parts 0 h
  refine ⟨gl0, hg0, ?_⟩
  intro gl hperm hsort
  have hgl : ∀ g ∈ gl, ∃ own, parts[g.part]? = some own ∧
      g.mapNo < mapCount own ∧ grpOf g.part own g.mapNo = some g := by
    intro g hg
    rw [hperm.mem_iff, grpList_mem hg0] at hg
    obtain ⟨i, own, h1, h2, h3⟩ := hg
    have := (grpOf_fields h3).1
    rw [Nat.zero_add] at this h3
    rw [this]
    exact ⟨own, h1, h2, h3⟩
  obtain ⟨ng, hng⟩ : ∃ ng, numberGrps (-1) (-1) gl = some ng := by
    cases gl with
    | nil => exact ⟨[], rfl⟩
    | cons g gl =>
      obtain ⟨own, h1, h2, h3⟩ := hgl g (by simp)
      obtain ⟨g', hg', ht⟩ := grpOf_defined (h own (List.mem_of_getElem? h1)) g.part h2
      rw [h3] at hg'
      injection hg' with hg'
      subst hg'
      have hno := nextNo_spec g.tag (-1) (-1)
      have : nextNo g.tag (-1) (-1) = 0 := by
        have : ¬ g.tag = -1 := by omega
        have := fun e => this (hno.2.1.2 e)
        omega
      obtain ⟨ng, hng⟩ := numberGrps_defined gl g.tag 0 (by omega)
      refine ⟨(g, 0) :: ng, ?_⟩
      simp only [numberGrps]
      rw [this, if_neg (by omega), hng]
      rfl
  have hfst := numberGrps_fst hng
  obtain ⟨hn1, hn2, hn3⟩ := number_spec hsort hng
  obtain ⟨⟨bs, ms⟩, hlink⟩ := linkLoop_defined h ng (List.replicate (mCount ng) none) (by
    intro x hx
    refine ⟨by rw [List.length_replicate]; exact (hn2 x hx).2, ?_⟩
    apply hgl
    rw [← hfst]; exact List.mem_map.mpr ⟨x, hx, rfl⟩)
  obtain ⟨hl1, hl2, hl3⟩ := linkLoop_spec (S := fun _ => []) (by
    intro r o hr
    rw [List.getElem?_replicate] at hr
    split at hr
    · injection hr with hr; exact Or.inl ⟨rfl, hr.symm⟩
    · cases hr) hlink
  obtain ⟨bases, hbases⟩ := baseBoxes_defined (d := d) bs (by
    intro o ho
    obtain ⟨k, hk⟩ := List.mem_iff_getElem?.1 ho
    rcases hl3 k o hk with ⟨h1, -⟩ | ⟨c, h1, h2⟩
    · exfalso
      have hklt : k < mCount ng := by
        have := (List.getElem?_eq_some_iff.mp hk).1
        rw [hl2, List.length_replicate] at this
        exact this
      obtain ⟨x, hx, hxk⟩ := hn3 k hklt
      obtain ⟨hlen', hget⟩ := List.forall₂_iff_get.mp hl1
      obtain ⟨i, hi, rfl⟩ := List.getElem_of_mem hx
      have hlk := hget i hi (by omega)
      have : ms[i]'(by omega) ∈ ms.filter (fun m => m.base = k) := by
        rw [List.mem_filter]
        refine ⟨List.getElem_mem _, ?_⟩
        have := hlk.2.2.1
        simp only [List.get_eq_getElem] at this
        simp [this, hxk]
      simp at h1
      have hmem := List.mem_filter.mp this
      exact h1 _ hmem.1 (by simpa using hmem.2)
    · exact ⟨c, h1, h2.exists_mem⟩)
  have hres : reserve d parts gl = some ⟨bases, ms⟩ := by
    simp only [reserve, hng, hlink, hbases]
  exact ⟨_, hres, ⟨gl, gl0, hg0, hperm, hsort, hres⟩⟩

/-! ### Freeing a reservation -/

/-- Step (5) of `laik_reservation_alloc` on ownership, src/data.c 1166-1184:
each embedded mapping takes the allocator of its combined mapping. -/
def embedAll : List Mem.MMap → List (Mem.MMap × Nat) → List Mem.MMap × List Mem.MMap
  | bases, [] => (bases, [])
  | bases, (m, k) :: ms =>
    match bases[k]? with
    | none => embedAll bases ms
    | some b =>
      let r := embedAll (bases.set k { b with own := false }) ms
      (r.1, Mem.embed m b :: r.2)

theorem embedAll_own : ∀ (ms : List (Mem.MMap × Nat)) (bases : List Mem.MMap) (k : Nat) (b : Mem.MMap),
    (embedAll bases ms).1[k]? = some b →
    (b.own = false ∨ ((∀ x ∈ ms, x.2 ≠ k) ∧ bases[k]? = some b)) := by
  intro ms
  induction ms with
  | nil => intro bases k b h; exact Or.inr ⟨by simp, h⟩
  | cons x ms ih =>
    obtain ⟨m, j⟩ := x
    intro bases k b h
    simp only [embedAll] at h
    split at h
    · rename_i hj
      rcases ih bases k b h with h1 | ⟨h1, h2⟩
      · exact Or.inl h1
      · refine Or.inr ⟨?_, h2⟩
        intro x hx
        rcases List.mem_cons.mp hx with rfl | hx
        · intro e
          have e' : j = k := e
          rw [e', h2] at hj; cases hj
        · exact h1 x hx
    · rename_i b0 hb0
      rcases ih _ k b h with h1 | ⟨h1, h2⟩
      · exact Or.inl h1
      · by_cases e : j = k
        · subst e
          rw [List.getElem?_set_self (List.getElem?_eq_some_iff.mp hb0).1] at h2
          injection h2 with h2
          rw [← h2]
          exact Or.inl rfl
        · rw [List.getElem?_set_ne e] at h2
          refine Or.inr ⟨?_, h2⟩
          intro x hx
          rcases List.mem_cons.mp hx with rfl | hx
          · exact e
          · exact h1 x hx

/-- `laik_reservation_free` (src/data.c 938-959) never frees any memory: every
combined mapping lost its allocator to an embedded mapping (each number is
used by some map), and those are dropped without freeing. -/
theorem C42_never_freed (bases : List Mem.MMap) (ms : List (Mem.MMap × Nat)) (h : Mem.Heap)
    (hall : ∀ k, k < bases.length → ∃ x ∈ ms, x.2 = k) :
    Mem.freeMaps h (embedAll bases ms).1 = .ok h := by
  have hown : ∀ b ∈ (embedAll bases ms).1, b.own = false := by
    intro b hb
    obtain ⟨k, hk⟩ := List.mem_iff_getElem?.1 hb
    rcases embedAll_own ms bases k b hk with h1 | ⟨h1, h2⟩
    · exact h1
    · obtain ⟨x, hx, hx'⟩ := hall k (List.getElem?_eq_some_iff.mp h2).1
      exact absurd hx' (h1 x hx)
  generalize (embedAll bases ms).1 = l at hown
  induction l with
  | nil => rfl
  | cons b l ih =>
    have hb := hown b (by simp)
    have : Mem.freeMap h b = .ok h := by
      unfold Mem.freeMap
      rcases b.start with _ | a
      · rfl
      · simp [hb]
    simp only [Mem.freeMaps, this]
    exact ih (fun x hx => hown x (by simp [hx]))

/-! ### Example: two partitionings with tags 1 and 2 -/

/-- Range of process 0. -/
def rsv (tag : Int) (a b : Int) (m : Int) : TR := ⟨0, tag, ⟨⟨a, 0, 0⟩, ⟨b, 0, 0⟩⟩, m⟩

def rsvParts : List (List TR) :=
  [[rsv 1 0 10 0, rsv 2 20 30 1], [rsv 1 5 15 0, rsv 2 18 20 1, rsv 2 25 28 1]]

def rsvGroups : List Grp := [⟨0, 0, 1⟩, ⟨1, 0, 1⟩, ⟨0, 1, 2⟩, ⟨1, 1, 2⟩]

example : ∃ r, Reservation .d1 rsvParts r ∧
    r.bases = [⟨⟨0, 0, 0⟩, ⟨15, 0, 0⟩⟩, ⟨⟨18, 0, 0⟩, ⟨30, 0, 0⟩⟩] ∧
    r.map .d1 1 1 = some ⟨1, ⟨⟨18, 0, 0⟩, ⟨28, 0, 0⟩⟩, ⟨⟨18, 0, 0⟩, ⟨30, 0, 0⟩⟩, 0⟩ ∧
    r.map .d1 0 1 = some ⟨1, ⟨⟨20, 0, 0⟩, ⟨30, 0, 0⟩⟩, ⟨⟨18, 0, 0⟩, ⟨30, 0, 0⟩⟩, 2⟩ := by
  refine ⟨_, ⟨rsvGroups, [⟨0, 0, 1⟩, ⟨0, 1, 2⟩, ⟨1, 0, 1⟩, ⟨1, 1, 2⟩], rfl, by decide, by decide, rfl⟩,
    by decide, by decide, by decide⟩

example : InRMap rsvParts 1 1 (rsv 2 25 28 1) := ⟨_, rfl, by decide, by decide, rfl⟩

end Laik
