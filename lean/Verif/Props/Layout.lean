import Verif.Model.ReuseLemmas
import Verif.Model.LayoutCopy
/-!
# C30: the lexicographic layout

Specification vocabulary: `Verif/Spec/Points.lean` (`boxPts`, `LexLt`,
`canon`), `Verif/Spec/Index.lean` (`Mem`).
-/

namespace Laik
open Lay

theorem newLexEntry_of_nonempty {d : Dims} {b : Box} (h : ∃ p, Mem d b p) :
    ∃ e, newLexEntry d b = some e := by
  have hlo := mem_lo_of_nonempty d b ((not_isEmpty_iff d b).2 h)
  cases d
  · rw [mem_d1] at hlo
    simp [newLexEntry, Box.size, Dims.toNat]
    rw [if_neg (by omega)]
    simp; omega
  · rw [mem_d2] at hlo
    simp [newLexEntry, Box.size, Dims.toNat]
    rw [if_neg (by omega), if_neg (by omega)]
    simp; omega
  · rw [mem_d3] at hlo
    simp [newLexEntry, Box.size, Dims.toNat]
    rw [if_neg (by omega), if_neg (by omega), if_neg (by omega)]
    simp; omega

theorem newLexEntries_of_nonempty {d : Dims} {bs : List Box} (h : ∀ b ∈ bs, ∃ p, Mem d b p) :
    ∃ es, newLexEntries d bs = some es := by
  induction bs with
  | nil => exact ⟨[], rfl⟩
  | cons b bs ih =>
    obtain ⟨e, he⟩ := newLexEntry_of_nonempty (h b (by simp))
    obtain ⟨es, hes⟩ := ih (fun c hc => h c (by simp [hc]))
    exact ⟨e :: es, by simp [newLexEntries, he, hes]⟩

/-- **C30** A layout can be created (no assert fails) exactly if no range is
empty; it has one map per range. -/
theorem C30_created (d : Dims) (ranges : List Box) :
    (∃ l, newLayoutLex d ranges = some l ∧ l.e.length = ranges.length) ↔
      ∀ b ∈ ranges, ∃ p, Mem d b p := by
  constructor
  · rintro ⟨l, hl, _⟩ b hb
    obtain ⟨h1, h2, h3, h4⟩ := newLayoutLex_spec hl
    obtain ⟨n, hn⟩ := List.mem_iff_getElem?.1 hb
    obtain ⟨e, _, he⟩ := h4 n b hn
    have := good_nonempty (newLexEntry_good he)
    rw [newLexEntry_box he] at this
    exact ⟨_, this⟩
  · intro h
    obtain ⟨es, hes⟩ := newLexEntries_of_nonempty h
    have hl : newLayoutLex d ranges = some ⟨d, (es.map fun e => (e.count : Int)).sum, es⟩ := by
      simp [newLayoutLex, hes]
    exact ⟨_, hl, (newLayoutLex_spec hl).2.2.1⟩

/-- **C30** The offsets of the indexes of the range of map `n`, in
lexicographic order (dimension 0 fastest), are `0, 1, …, size-1`: the
allocation is filled without holes and without double use. -/
theorem C30_offsets_dense {d : Dims} {ranges : List Box} {l : LexLayout}
    (hl : newLayoutLex d ranges = some l) {n : Nat} {b : Box} (hb : ranges[n]? = some b) :
    ∃ cnt, b.size d = some cnt ∧
      (boxPts d b).map (offsetLex l n) = (spanN cnt 0).map some := by
  obtain ⟨h1, h2, h3, h4⟩ := newLayoutLex_spec hl
  obtain ⟨e, he, hn⟩ := h4 n b hb
  have hg := newLexEntry_good hn
  have hbox := newLexEntry_box hn
  have hne := good_nonempty hg
  rw [hbox] at hne
  refine ⟨e.count, ?_, ?_⟩
  · have h5 := length_boxPts d b ((not_isEmpty_iff d b).2 ⟨_, hne⟩)
    have h6 := congrArg List.length (offsets_dense hg)
    rw [List.length_map, length_spanN, hbox] at h6
    rw [h5, h6]
  · rw [← offsets_dense hg, hbox, List.map_map]
    apply List.map_congr_left
    intro p hp
    have hpm := ((mem_boxPts d b p).1 hp).1
    rw [← hbox] at hpm
    have := off_bounds hg hpm
    simp [offsetLex, he, h1, this]

/-- **C30** Two indexes of the range of a map: both offsets exist and are
within the allocated size, they are equal only for the same index, and they
are ordered like the indexes (dimension 0 fastest). -/
theorem C30_offsets {d : Dims} {ranges : List Box} {l : LexLayout}
    (hl : newLayoutLex d ranges = some l) {n : Nat} {b : Box} (hb : ranges[n]? = some b)
    {p q : Idx} (hp : Mem d b p) (hq : Mem d b q) :
    ∃ op oq cnt, offsetLex l n p = some op ∧ offsetLex l n q = some oq ∧
      b.size d = some cnt ∧ 0 ≤ op ∧ op < cnt ∧
      (op = oq ↔ canon d p = canon d q) ∧ (op < oq ↔ LexLt d p q) := by
  obtain ⟨h1, h2, h3, h4⟩ := newLayoutLex_spec hl
  obtain ⟨e, he, hn⟩ := h4 n b hb
  have hg := newLexEntry_good hn
  have hbox := newLexEntry_box hn
  have hsz : b.size d = some e.count := by
    have h5 := length_boxPts d b ((not_isEmpty_iff d b).2 ⟨_, hp⟩)
    have h6 := congrArg List.length (offsets_dense hg)
    rw [List.length_map, length_spanN, hbox] at h6
    rw [h5, h6]
  rw [← hbox] at hp hq
  have bp := off_bounds hg hp
  have bq := off_bounds hg hq
  refine ⟨e.off d p, e.off d q, e.count, by simp [offsetLex, he, h1, bp],
    by simp [offsetLex, he, h1, bq], hsz, bp.1, bp.2, ⟨off_inj hg hp hq, ?_⟩, off_lt_iff hg hp hq⟩
  intro h
  rw [← off_canon, h, off_canon]

/-- **C30** `section_lex` finds the first map whose range contains the index,
and fails exactly if no range contains it. -/
theorem C30_section {d : Dims} {ranges : List Box} {l : LexLayout}
    (hl : newLayoutLex d ranges = some l) (p : Idx) :
    (∀ n, sectionLex l p = some n ↔
      (∃ b, ranges[n]? = some b ∧ Mem d b p) ∧
        ∀ k c, k < n → ranges[k]? = some c → ¬ Mem d c p) ∧
    (sectionLex l p = none ↔ ∀ b ∈ ranges, ¬ Mem d b p) := by
  obtain ⟨h1, h2, h3, h4⟩ := newLayoutLex_spec hl
  have hget : ∀ k (hk : k < l.e.length), ∃ c, ranges[k]? = some c ∧
      ((l.e[k]).contains d p = true ↔ Mem d c p) := by
    intro k hk
    have hk' : k < ranges.length := by omega
    obtain ⟨e, he, hn⟩ := h4 k _ (List.getElem?_eq_getElem hk')
    refine ⟨ranges[k], List.getElem?_eq_getElem hk', ?_⟩
    have : l.e[k] = e := by
      rw [List.getElem?_eq_getElem hk] at he; simpa using he
    rw [this, contains_iff, newLexEntry_box hn]
  constructor
  · intro n
    unfold sectionLex
    rw [List.findIdx?_eq_some_iff_getElem, h1]
    constructor
    · rintro ⟨hn, hc, hlt⟩
      obtain ⟨c, hc1, hc2⟩ := hget n hn
      refine ⟨⟨c, hc1, hc2.1 hc⟩, ?_⟩
      intro k c' hk hck hm
      obtain ⟨c'', g1, g2⟩ := hget k (by omega)
      rw [g1] at hck
      simp only [Option.some.injEq] at hck
      subst hck
      exact hlt k hk (g2.2 hm)
    · rintro ⟨⟨b, hb, hm⟩, hlt⟩
      have hn : n < l.e.length := by
        have := (List.getElem?_eq_some_iff.1 hb).1; omega
      obtain ⟨c, g1, g2⟩ := hget n hn
      rw [hb] at g1
      simp only [Option.some.injEq] at g1
      subst g1
      refine ⟨hn, g2.2 hm, ?_⟩
      intro k hk hcon
      obtain ⟨c', g3, g4⟩ := hget k (by omega)
      exact hlt k c' hk g3 (g4.1 hcon)
  · unfold sectionLex
    rw [List.findIdx?_eq_none_iff, h1]
    constructor
    · intro h b hb hm
      obtain ⟨n, hn⟩ := List.mem_iff_getElem?.1 hb
      have hlt : n < l.e.length := by
        have := (List.getElem?_eq_some_iff.1 hn).1; omega
      obtain ⟨c, g1, g2⟩ := hget n hlt
      rw [hn] at g1
      simp only [Option.some.injEq] at g1
      subst g1
      have := h l.e[n] (List.getElem_mem hlt)
      rw [g2.2 hm] at this
      simp at this
    · intro h e he
      obtain ⟨n, hn, rfl⟩ := List.mem_iff_getElem.1 he
      obtain ⟨c, g1, g2⟩ := hget n hn
      cases hc : (l.e[n]).contains d p with
      | false => rfl
      | true => exact absurd (g2.1 hc) (h c (List.mem_of_getElem? g1))

/-- **C30** Each section is one map, `mapno_lex`. -/
theorem C30_mapno {d : Dims} {ranges : List Box} {l : LexLayout}
    (hl : newLayoutLex d ranges = some l) (n : Nat) :
    mapnoLex l n = if n < ranges.length then some n else none := by
  unfold mapnoLex; rw [(newLayoutLex_spec hl).2.2.1]

/-- **C30** The size recorded in the layout is the number of indexes in all
ranges. -/
theorem C30_count {d : Dims} {ranges : List Box} {l : LexLayout}
    (hl : newLayoutLex d ranges = some l) :
    l.count = (ranges.map fun b => (((boxPts d b).length : Nat) : Int)).sum := by
  unfold newLayoutLex at hl
  cases hes : newLexEntries d ranges with
  | none => rw [hes] at hl; simp at hl
  | some es =>
    rw [hes] at hl
    simp only [Option.some.injEq] at hl
    subst hl
    simp only
    have h := newLexEntries_get hes
    have : es.map (fun e => (e.count : Int)) =
        ranges.map (fun b => (((boxPts d b).length : Nat) : Int)) := by
      apply List.ext_getElem?
      intro n
      simp only [List.getElem?_map]
      cases hr : ranges[n]? with
      | none =>
        have : es[n]? = none := by
          rw [List.getElem?_eq_none_iff] at hr ⊢; omega
        rw [this]; rfl
      | some b =>
        obtain ⟨e, he, hn⟩ := h.2 n b hr
        have h6 := congrArg List.length (offsets_dense (newLexEntry_good hn))
        rw [List.length_map, length_spanN, newLexEntry_box hn] at h6
        rw [he]; simp [h6]
    rw [this]

/-- **C30** Different maps never overlap: if the allocations `[start, start +
size)` of two maps are disjoint, no index of the one shares its cell with an
index of the other. -/
theorem C30_maps_disjoint {d : Dims} {ranges : List Box} {l : LexLayout}
    (hl : newLayoutLex d ranges = some l) {n k : Nat} {b c : Box} (hb : ranges[n]? = some b)
    (hc : ranges[k]? = some c) {sn sk : Int} {cb cc : Nat}
    (hcb : b.size d = some cb) (hcc : c.size d = some cc)
    (hdis : sn + cb ≤ sk ∨ sk + cc ≤ sn)
    {p q : Idx} (hp : Mem d b p) (hq : Mem d c q) :
    ∃ op oq, offsetLex l n p = some op ∧ offsetLex l k q = some oq ∧ sn + op ≠ sk + oq := by
  obtain ⟨op, _, cnt, h1, _, h2, h3, h4, _⟩ := C30_offsets hl hb hp hp
  obtain ⟨oq, _, cnt', g1, _, g2, g3, g4, _⟩ := C30_offsets hl hc hq hq
  rw [hcb] at h2; rw [hcc] at g2
  simp only [Option.some.injEq] at h2 g2
  refine ⟨op, oq, h1, g1, ?_⟩
  omega

/-! A 2d layout with two maps of different shape. -/
namespace LayoutEx
def r0 : Box := ⟨⟨0, 0, 0⟩, ⟨2, 2, 0⟩⟩
def r1 : Box := ⟨⟨10, 0, 0⟩, ⟨13, 2, 0⟩⟩
def lay : LexLayout := ⟨.d2, 10, [⟨r0, 4, 1, 2, 0⟩, ⟨r1, 6, 1, 3, 0⟩]⟩
example : newLayoutLex .d2 [r0, r1] = some lay := by decide
example : (boxPts .d2 r1).map (offsetLex lay 1) = (spanN 6 0).map some := by decide
example : sectionLex lay ⟨11, 1, 0⟩ = some 1 ∧ sectionLex lay ⟨5, 1, 0⟩ = none := by decide
example : offsetLex lay 1 ⟨12, 0, 0⟩ = some 2 ∧ offsetLex lay 1 ⟨10, 1, 0⟩ = some 3 ∧
    LexLt .d2 ⟨12, 0, 0⟩ ⟨10, 1, 0⟩ :=
  ⟨by decide, by decide, by unfold LexLt; decide⟩
/-- an index in no map has offset in the first (the assert is not a membership
test) -/
example : offsetLex lay 0 ⟨2, 0, 0⟩ = some 2 := by decide
end LayoutEx

end Laik
