import Verif.Model.LayoutCopy
import Verif.Props.Pack
/-!
# C32: copying between mappings

`laik_data_copy` copies exactly the given range between two mappings; `Moved`
(`Verif/Spec/Points.lean`): afterwards each index of the range has in the
destination the value it had in the source, and no other cell changed (also
not in the source).
-/

namespace Laik
open Lay

/-- Copy of a range, if source and destination cells do not overlap. -/
def CopyOK (iS iD : Impl) (V : Type) (src dst : LMap) (b : Box) : Prop :=
  ∀ mem : Int → V, ∃ mem', dataCopy iS iD b src dst mem = some mem' ∧
    Moved src.lay.dims b (fun p => mem (src.cell p)) dst.cell mem mem'

theorem dataCopy_cases {V : Type} {iS iD : Impl} {src dst : LMap} {b : Box} {mem : Int → V}
    {r : Option (Int → V)}
    (hl : iS = .lex → iD = .lex → copyLex b src dst mem = r)
    (hg : copyGen b src dst mem = r) :
    dataCopy iS iD b src dst mem = r := by
  unfold dataCopy
  cases iS <;> cases iD <;> simp_all

theorem copy_ok {V : Type} {iS iD : Impl} {src dst : LMap} (hs : src.WF) (ht : dst.WF)
    (hst : iS = .lex → iD = .lex → src.Strides0 ∧ dst.Strides0)
    (hd : dst.lay.dims = src.lay.dims) {b : Box} (hne : ∃ p, Mem src.lay.dims b p)
    (hbs : SubsetOf src.lay.dims b src.required) (hbt : SubsetOf src.lay.dims b dst.required)
    (hdis : ∀ p q, Mem src.lay.dims b p → Mem src.lay.dims b q → src.cell p ≠ dst.cell q) :
    CopyOK iS iD V src dst b := by
  intro mem
  refine ⟨_, dataCopy_cases (fun h1 h2 => copyLex_spec hs ht (hst h1 h2).1 (hst h1 h2).2 hd hne hbs
    hbt hdis mem) (copyGen_spec hs ht hd hne hbs hbt hdis mem), ?_⟩
  have := moved_storeAll ht (b := b) (by rw [hd]; exact hbt) (fun p => mem (src.cell p))
    (fun p => by simp only [hd, cell_canon]) mem
  rw [hd] at this
  exact this

/-- **C32** With the generic copy (`laik_layout_copy_gen`, also used if the
layouts use different copy functions) exactly the given range is copied, for
any two mappings. -/
theorem C32_copy_generic {V : Type} {iS iD : Impl} (hi : iS = .gen ∨ iD = .gen) {src dst : LMap}
    (hs : src.WF) (ht : dst.WF)
    (hd : dst.lay.dims = src.lay.dims) {b : Box} (hne : ∃ p, Mem src.lay.dims b p)
    (hbs : SubsetOf src.lay.dims b src.required) (hbt : SubsetOf src.lay.dims b dst.required)
    (hdis : ∀ p q, Mem src.lay.dims b p → Mem src.lay.dims b q → src.cell p ≠ dst.cell q) :
    CopyOK iS iD V src dst b :=
  copy_ok hs ht (by rintro rfl rfl; rcases hi with h | h <;> cases h) hd hne hbs hbt hdis

/-- **C32, partial** With the specific copy of lexicographic layouts exactly
the given range is copied.  Missing (false of the code): maps in other sections
than the first with other strides, as `copy_lex` uses the strides of entry 0,
see `C32_lex_wrong_section`. -/
theorem C32_copy_partial {V : Type} (iS iD : Impl) {src dst : LMap} (hs : src.WF) (ht : dst.WF)
    (hss : src.Strides0) (hts : dst.Strides0)
    (hd : dst.lay.dims = src.lay.dims) {b : Box} (hne : ∃ p, Mem src.lay.dims b p)
    (hbs : SubsetOf src.lay.dims b src.required) (hbt : SubsetOf src.lay.dims b dst.required)
    (hdis : ∀ p q, Mem src.lay.dims b p → Mem src.lay.dims b q → src.cell p ≠ dst.cell q) :
    CopyOK iS iD V src dst b :=
  copy_ok hs ht (fun _ _ => ⟨hss, hts⟩) hd hne hbs hbt hdis

/-- **C32** An empty range is not accepted by either copy function (failed
assert), rather than copying something. -/
theorem C32_empty_rejected {V : Type} {src dst : LMap} {b : Box}
    (hx : b.lo.x = b.hi.x) (mem : Int → V) : dataCopy .lex .lex b src dst mem = none := by
  unfold dataCopy
  simp only [if_true]
  unfold copyLex
  cases src.lay.e[0]? with
  | none => rfl
  | some f0 =>
    cases dst.lay.e[0]? with
    | none => rfl
    | some t0 =>
      simp only
      split
      · rfl
      · rw [if_pos]
        simp [subIndex, hx]

example : CopyOK .lex .lex Nat PackEx.ms PackEx.mr PackEx.r1 :=
  C32_copy_partial _ _ PackEx.wfs PackEx.wfr (C31_strides_partial PackEx.wfs (.inl rfl))
    (C31_strides_partial PackEx.wfr (.inl rfl)) rfl PackEx.ne (PackEx.sub_self _ _)
    (PackEx.sub_self _ _) (by
      intro p q hp hq h
      have hp' : Mem .d2 PackEx.r1 p := hp
      have hq' : Mem .d2 PackEx.r1 q := hq
      obtain ⟨_, e, he, hs⟩ := PackEx.wfs
      have a1 := off_bounds (good_of_getElem? PackEx.wfs.1 he) (hs p hp')
      rw [cell_eq PackEx.wfs.1 he (hs p hp')] at h
      obtain ⟨_, e', he', hs'⟩ := PackEx.wfr
      have a2 := off_bounds (good_of_getElem? PackEx.wfr.1 he') (hs' q hq')
      rw [cell_eq PackEx.wfr.1 he' (hs' q hq')] at h
      have c1 : e.count = 6 := by
        have : some e = some ⟨PackEx.r1, 6, 1, 3, 0⟩ := by rw [← he]; rfl
        simp only [Option.some.injEq] at this; rw [this]
      have s1 : PackEx.ms.start = 0 := rfl
      have s2 : PackEx.mr.start = 100 := rfl
      rw [s1, s2] at h
      omega)

/-- **C32 fails** of the code for the specific copy and a source in another
section: the value of cell 5 of the source (index (12,1)) should arrive in cell
113 of the destination, but the value of cell 4 does. -/
theorem C32_lex_wrong_section :
    PackEx.m1.WF ∧ PackEx.mr.WF ∧
    (PackEx.m1.cell ⟨12, 1, 0⟩, PackEx.mr.cell ⟨12, 1, 0⟩) = (5, 113) ∧
    (dataCopy .lex .lex PackEx.r1 PackEx.m1 PackEx.mr (fun a => a)).map (· 113) = some 4 ∧
    (dataCopy .gen .gen PackEx.r1 PackEx.m1 PackEx.mr (fun a => a)).map (· 113) = some 5 :=
  ⟨PackEx.wf1, PackEx.wfr, by decide, by decide, by decide⟩

end Laik
