import Verif.Model.PackSend
import Verif.Model.LayoutCopy
/-!
# C31: piecewise packing and unpacking is lossless

`boxPts d b` lists the indexes of the transferred range in lexicographic
order; `m.cell p` is the memory cell of index `p` in a mapping.  `Moved`
(`Verif/Spec/Points.lean`): each index of the range got the value of the
sender, no other cell changed.
-/

namespace Laik
open Lay

/-- A transfer of a range in buffers of arbitrary sizes. -/
def PiecewiseOK (iS iR : Impl) (V : Type) (ms mr : LMap) (b : Box) : Prop :=
  ∀ (memS memR : Int → V) (caps : List Nat),
    ∃ mem' i j, pieces iS iR ms mr memS b caps memR b.lo b.lo = some (mem', i, j) ∧
      -- both sides agree on when everything was transferred
      (indexIsEqual ms.lay.dims i b.hi ↔ indexIsEqual ms.lay.dims j b.hi) ∧
      (indexIsEqual ms.lay.dims i b.hi ↔ (boxPts ms.lay.dims b).length ≤ caps.sum) ∧
      -- nothing but cells of the range is touched, whatever the progress
      (∀ a, (∀ p, Mem ms.lay.dims b p → mr.cell p ≠ a) → mem' a = memR a) ∧
      -- and then all values have arrived
      (indexIsEqual ms.lay.dims i b.hi →
        Moved ms.lay.dims b (fun p => memS (ms.cell p)) mr.cell memR mem')

theorem pieces_ok {V : Type} {iS iR : Impl} {ms mr : LMap} (hs : ms.WF) (hr : mr.WF)
    (hss : iS = .lex → ms.Strides0) (hrs : iR = .lex → mr.Strides0)
    (hd : mr.lay.dims = ms.lay.dims) {b : Box} (hne : ∃ p, Mem ms.lay.dims b p)
    (hbs : SubsetOf ms.lay.dims b ms.required) (hbr : SubsetOf ms.lay.dims b mr.required) :
    PiecewiseOK iS iR V ms mr b := by
  intro memS memR caps
  have hemp := (not_isEmpty_iff ms.lay.dims b).2 hne
  have hlo := at_lo (mem_lo_of_nonempty _ _ hemp)
  obtain ⟨i, j, h1, h2, h3⟩ := pieces_spec hs hr hss hrs hd memS hbs hbr caps memR b.lo b.lo _ hlo hlo
  have hdrop : (boxPts ms.lay.dims b).drop caps.sum = [] ↔
      (boxPts ms.lay.dims b).length ≤ caps.sum := by
    rw [List.drop_eq_nil_iff]
  refine ⟨_, i, j, h1, ?_, ?_, ?_, ?_⟩
  · rw [at_end h2, at_end h3]
  · rw [at_end h2, hdrop]
  · intro a ha
    apply storeAll_other
    intro p hp
    exact ha p ((mem_boxPts _ _ _).1 (List.mem_of_mem_take hp)).1
  · intro hend
    rw [at_end h2, hdrop] at hend
    rw [List.take_of_length_le hend]
    have := moved_storeAll hr (b := b) (by rw [hd]; exact hbr) (fun p => memS (ms.cell p))
      (fun p => by simp only [hd, cell_canon]) memR
    rw [hd] at this
    exact this

/-- **C31** With the generic functions of `src/layout.c` any two mappings
(layouts, sections, allocations of different shape) can exchange a range in
pieces of any sizes. -/
theorem C31_piecewise_generic {V : Type} {ms mr : LMap} (hs : ms.WF) (hr : mr.WF)
    (hd : mr.lay.dims = ms.lay.dims) {b : Box} (hne : ∃ p, Mem ms.lay.dims b p)
    (hbs : SubsetOf ms.lay.dims b ms.required) (hbr : SubsetOf ms.lay.dims b mr.required) :
    PiecewiseOK .gen .gen V ms mr b :=
  pieces_ok hs hr (by simp) (by simp) hd hne hbs hbr

/-- **C31, partial** The same for any mix of the specific functions of
`src/layout_lex.c` and the generic ones.  Missing (false of the code): mappings
in other sections than the first with other strides, as the specific functions
use the strides of entry 0, see `C31_lex_wrong_section`. -/
theorem C31_piecewise_partial {V : Type} (iS iR : Impl) {ms mr : LMap} (hs : ms.WF) (hr : mr.WF)
    (hss : iS = .lex → ms.Strides0) (hrs : iR = .lex → mr.Strides0)
    (hd : mr.lay.dims = ms.lay.dims) {b : Box} (hne : ∃ p, Mem ms.lay.dims b p)
    (hbs : SubsetOf ms.lay.dims b ms.required) (hbr : SubsetOf ms.lay.dims b mr.required) :
    PiecewiseOK iS iR V ms mr b :=
  pieces_ok hs hr hss hrs hd hne hbs hbr

/-- When the strides are fine: mappings in the first section (in particular
all mapping lists with one map), and all one-dimensional mappings. -/
theorem C31_strides_partial {m : LMap} (h : m.WF) (h0 : m.sect = 0 ∨ m.lay.dims = .d1) :
    m.Strides0 := by
  intro e0 e he0 he
  rcases h0 with h0 | h0
  · rw [h0, he0] at he
    simp only [Option.some.injEq] at he
    subst he; exact ⟨rfl, rfl⟩
  · have g0 := good_spec (good_of_getElem? h.1 he0)
    have g := good_spec (good_of_getElem? h.1 he)
    rw [h0] at g0 g
    obtain ⟨_, _, _, _, _, a1, _, a2, _⟩ := g0
    obtain ⟨_, _, _, _, _, b1, _, b2, _⟩ := g
    rw [a1 (by decide), b1 (by decide), a2 (by decide), b2 (by decide)]
    exact ⟨rfl, rfl⟩

/-- **C31, partial** (strides as above) One call of pack: exactly the next `cap` values of the range (all
that are left if fewer), in lexicographic order. -/
theorem C31_pack_order_partial {V : Type} (im : Impl) {m : LMap} (h : m.WF)
    (hst : im = .lex → m.Strides0) (mem : Int → V) {b : Box} (hne : ∃ p, Mem m.lay.dims b p)
    (hb : SubsetOf m.lay.dims b m.required) (cap : Nat) :
    ∃ i, packI im m mem b b.lo cap =
      some (((boxPts m.lay.dims b).take cap).map (fun p => mem (m.cell p)), i) := by
  obtain ⟨i, h1, _⟩ := pack_step im h hst mem hb (at_lo (mem_lo_of_nonempty _ _ ((not_isEmpty_iff _ _).2 hne))) cap
  exact ⟨i, h1⟩

/-- The MPI back-end sends a range in messages of at most `cap` elements, and
the receiver gets all of it and leaves later messages alone. -/
def MpiTransferOK (iS iR : Impl) (V : Type) (ms mr : LMap) (b : Box) : Prop :=
  ∀ (memS memR : Int → V) (cap size : Nat), 0 < cap → b.size ms.lay.dims = some size →
    ∃ msgs, packAndSend iS ms memS b cap size = some msgs ∧
      (∀ g ∈ msgs, g.length ≤ cap) ∧
      ∀ rest, ∃ mem', recvAndUnpack iR mr memR b cap size (msgs ++ rest) = some (mem', rest) ∧
        Moved ms.lay.dims b (fun p => memS (ms.cell p)) mr.cell memR mem'

/-- **C31, partial** `laik_mpi_exec_packAndSend` and
`laik_mpi_exec_recvAndUnpack` transfer a range losslessly, for any buffer size
of at least one element; no assert fails on either side.  Missing as in
`C31_piecewise_partial`; no restriction remains if both layouts use the generic
functions. -/
theorem C31_mpi_partial {V : Type} (iS iR : Impl) {ms mr : LMap} (hs : ms.WF) (hr : mr.WF)
    (hss : iS = .lex → ms.Strides0) (hrs : iR = .lex → mr.Strides0)
    (hd : mr.lay.dims = ms.lay.dims) {b : Box} (hne : ∃ p, Mem ms.lay.dims b p)
    (hbs : SubsetOf ms.lay.dims b ms.required) (hbr : SubsetOf ms.lay.dims b mr.required) :
    MpiTransferOK iS iR V ms mr b := by
  intro memS memR cap size hcap hsize
  have hemp := (not_isEmpty_iff ms.lay.dims b).2 hne
  have hlo := at_lo (mem_lo_of_nonempty _ _ hemp)
  have hlen : (boxPts ms.lay.dims b).length = size := by
    rw [length_boxPts _ _ hemp] at hsize; simpa using hsize
  have hnil : boxPts ms.lay.dims b ≠ [] := by
    obtain ⟨p, hp⟩ := hne
    intro h
    have : canon ms.lay.dims p ∈ boxPts ms.lay.dims b :=
      (mem_boxPts _ _ _).2 ⟨(mem_canon _ _ _).2 hp, canon_canon _ _⟩
    rw [h] at this; simp at this
  obtain ⟨msgs, h1, h2, h3, h4⟩ := packSendLoop_spec hs hss memS hbs cap hcap (size + 1) b.lo _ 0
    hlo hnil (by omega)
  refine ⟨msgs, by simp [packAndSend, h1, hlen], fun g hg => (h3 g hg).2, fun rest => ?_⟩
  have hlo' : At mr.lay.dims b b.lo (boxPts ms.lay.dims b) := by rw [hd]; exact hlo
  have h5 := recvUnpackLoop_spec hr hrs (b := b) (by rw [hd]; exact hbr) cap rest msgs memR b.lo _ 0
    hlo' h2 h3 (by rw [h4]; simp)
  refine ⟨_, by simp [recvAndUnpack, h5, hlen]; rfl, ?_⟩
  rw [h4]
  have := moved_storeAll hr (b := b) (by rw [hd]; exact hbr) (fun p => memS (ms.cell p))
    (fun p => by simp only [hd, cell_canon]) memR
  rw [hd] at this
  exact this

/-! Two maps of different shape in one layout. -/
namespace PackEx
def r0 : Box := ⟨⟨0, 0, 0⟩, ⟨2, 2, 0⟩⟩
def r1 : Box := ⟨⟨10, 0, 0⟩, ⟨13, 2, 0⟩⟩
def lay : LexLayout := ⟨.d2, 10, [⟨r0, 4, 1, 2, 0⟩, ⟨r1, 6, 1, 3, 0⟩]⟩
def lay1 : LexLayout := ⟨.d2, 6, [⟨r1, 6, 1, 3, 0⟩]⟩
def big : Box := ⟨⟨9, -1, 0⟩, ⟨14, 3, 0⟩⟩
def layBig : LexLayout := ⟨.d2, 20, [⟨big, 20, 1, 5, 0⟩]⟩
/-- map 1 of `lay` -/
def m1 : LMap := ⟨lay, 1, 0, 0, r1, r1⟩
/-- the only map of `lay1`, and the same range in a larger allocation -/
def ms : LMap := ⟨lay1, 0, 0, 0, r1, r1⟩
def mr : LMap := ⟨layBig, 0, 100, 106, r1, big⟩

theorem sub_self (d : Dims) (b : Box) : SubsetOf d b b := fun _ h => h
theorem sub_big : SubsetOf .d2 r1 big := by
  intro p hp
  rw [mem_d2] at hp ⊢
  simp only [r1, big] at *
  omega

example : newLayoutLex .d2 [r0, r1] = some lay := by decide
example : newLayoutLex .d2 [big] = some layBig := by decide
theorem wf1 : m1.WF := ⟨by decide, _, rfl, sub_self _ _⟩
theorem wfs : ms.WF := ⟨by decide, _, rfl, sub_self _ _⟩
theorem wfr : mr.WF := ⟨by decide, _, rfl, sub_big⟩
theorem ne : ∃ p, Mem .d2 r1 p := ⟨⟨10, 0, 0⟩, by rw [mem_d2]; decide⟩

example : MpiTransferOK .lex .gen Nat ms mr r1 :=
  C31_mpi_partial _ _ wfs wfr (fun _ => C31_strides_partial wfs (.inl rfl)) (by simp) rfl ne
    (sub_self _ _) (sub_self _ _)
example : PiecewiseOK .gen .gen Nat m1 mr r1 :=
  C31_piecewise_generic wf1 wfr rfl ne (sub_self _ _) (sub_self _ _)
example : packI .lex ms (fun a => a) r1 r1.lo 4 = some ([0, 1, 2, 3], ⟨11, 1, 0⟩) := by decide
example : packI .gen m1 (fun a => a) r1 r1.lo 4 = some ([0, 1, 2, 3], ⟨11, 1, 0⟩) := by decide
end PackEx

/-- **C31 fails** of the code for the specific functions and a map in another
section: cells 0…5 of map 1 hold 0…5, but `pack_lex` sends the value of cell 2
twice and never that of cell 5. -/
theorem C31_lex_wrong_section :
    PackEx.m1.WF ∧ newLayoutLex .d2 [PackEx.r0, PackEx.r1] = some PackEx.lay ∧
    (boxPts .d2 PackEx.r1).map PackEx.m1.cell = [0, 1, 2, 3, 4, 5] ∧
    (packI .lex PackEx.m1 (fun a => a) PackEx.r1 PackEx.r1.lo 6).map (·.1) =
      some [0, 1, 2, 2, 3, 4] :=
  ⟨PackEx.wf1, by decide, by decide, by decide⟩

/-- Hence the restriction in the partial theorems cannot be dropped. -/
theorem C31_piecewise_false : ¬ ∀ (ms mr : LMap) (b : Box), ms.WF → mr.WF →
    mr.lay.dims = ms.lay.dims → (∃ p, Mem ms.lay.dims b p) → SubsetOf ms.lay.dims b ms.required →
    SubsetOf ms.lay.dims b mr.required → PiecewiseOK .lex .gen Int ms mr b := by
  intro h
  obtain ⟨mem', i, j, h1, _, h3, _, h5⟩ := h PackEx.m1 PackEx.mr PackEx.r1 PackEx.wf1 PackEx.wfr rfl
    PackEx.ne (PackEx.sub_self _ _) (PackEx.sub_self _ _) (fun a => a) (fun _ => 0) [6]
  have hi : indexIsEqual PackEx.m1.lay.dims i PackEx.r1.hi := h3.2 (by decide)
  have hm := (h5 hi).1 ⟨12, 1, 0⟩ (by rw [show PackEx.m1.lay.dims = .d2 from rfl, mem_d2]; decide)
  have e1 : PackEx.mr.cell ⟨12, 1, 0⟩ = 113 := by decide
  have e2 : PackEx.m1.cell ⟨12, 1, 0⟩ = 5 := by decide
  have h6 : (pieces .lex .gen PackEx.m1 PackEx.mr (fun a => a) PackEx.r1 [6] (fun _ => (0 : Int))
    PackEx.r1.lo PackEx.r1.lo).map (fun r => r.1 113) = some 4 := by decide
  rw [h1] at h6
  simp only [Option.map_some, Option.some.injEq] at h6
  simp only [e1, e2, h6] at hm
  exact absurd hm (by decide)

end Laik
