import Verif.Model.ReuseLemmas
import Verif.Props.Pack
/-!
# C33: re-use of allocations

`ml.addr i p` is the cell of index `p` in mapping `i` used by pack, unpack and
copy (`start + offset`); `localAddr` is the cell an application reaches via
`laik_get_map_1d/2d/3d`; `getMapAddr` is the result of `laik_get_map_addr`.
-/

namespace Laik
open Lay

/-- **C33** Lists of mappings stay consistent when they are created, get
memory, or take over allocations of another list. -/
theorem C33_consistent :
    (∀ (d : Dims) (ranges : List Box) (ml : MList), prepMaps d ranges = some ml → ml.OK) ∧
    (∀ (ml ml' : MList) (i : Nat) (a : Int), ml.OK → allocMap ml i a = some ml' → ml'.OK) ∧
    (∀ (to fr to' fr' : MList), to.OK → fr.OK → fr.lay.dims = to.lay.dims →
      (∀ m ∈ to.maps, m.start = none) → checkMapReuse to fr = some (to', fr') →
      to'.OK ∧ fr'.OK) := by
  refine ⟨fun d ranges ml h => (prepMaps_ok h).1, fun ml ml' i a h h' => allocMap_ok h h', ?_⟩
  intro to fr to' fr' hto hfr hd hfresh h
  unfold checkMapReuse at h
  split at h
  · simp only [Option.some.injEq, Prod.mk.injEq] at h
    rw [← h.1, ← h.2]; exact ⟨hto, hfr⟩
  · obtain ⟨t, f, h1, h2, _, _, h3, _⟩ := reuseLoop_spec hfr hd hfresh to.maps.length 0 to fr
      (by omega) hto rfl rfl ⟨rfl, rfl, fun s m hm => ⟨m, hm, rfl, fun _ => rfl⟩⟩
      (fun j hj => by omega) (fun j _ => ⟨rfl, rfl⟩)
    rw [h1] at h
    simp only [Option.some.injEq, Prod.mk.injEq] at h
    rw [← h.1, ← h.2]; exact ⟨h2, h3.ok hfr⟩

/-- **C33** Taking over allocations never fails; a new mapping is either
untouched, or it is embedded in the allocation of an old mapping that was not
re-used before and is marked as re-used for exactly this new mapping.  Then
every index of the new mapping resolves to the same cell as in the old mapping.
Nothing else changes in the old mappings. -/
theorem C33_same_cells {to fr : MList} (hto : to.OK) (hfr : fr.OK)
    (hd : fr.lay.dims = to.lay.dims) (hfresh : ∀ m ∈ to.maps, m.start = none) :
    ∃ to' fr', checkMapReuse to fr = some (to', fr') ∧
      to'.maps.length = to.maps.length ∧ fr'.maps.length = fr.maps.length ∧
      (∀ s p, fr'.addr s p = fr.addr s p) ∧
      ∀ i m, to.maps[i]? = some m →
        (to'.maps[i]? = some m ∧ to'.lay.e[i]? = to.lay.e[i]?) ∨
        ∃ s m0 m1 m', fr.maps[s]? = some m0 ∧ m0.reusedFor = none ∧
          fr'.maps[s]? = some m1 ∧ m1.reusedFor = some i ∧
          to'.maps[i]? = some m' ∧ m'.required = m.required ∧
          ∀ p, Mem to.lay.dims m.required p →
            ∃ a, to'.addr i p = some a ∧ fr.addr s p = some a := by
  unfold checkMapReuse
  by_cases h0 : fr.maps.length = 0 ∨ to.maps.length = 0
  · rw [if_pos h0]
    exact ⟨to, fr, rfl, rfl, rfl, fun _ _ => rfl, fun i m hm => .inl ⟨hm, rfl⟩⟩
  · rw [if_neg h0]
    obtain ⟨t, f, h1, h2, h3, h4, h5, h6⟩ := reuseLoop_spec hfr hd hfresh to.maps.length 0 to fr
      (by omega) hto rfl rfl ⟨rfl, rfl, fun s m hm => ⟨m, hm, rfl, fun _ => rfl⟩⟩
      (fun j hj => by omega) (fun j _ => ⟨rfl, rfl⟩)
    refine ⟨t, f, h1, h4, h5.2.1, h5.addr, ?_⟩
    intro i m hm
    have hi := (List.getElem?_eq_some_iff.1 hm).1
    rcases h6 i hi with ⟨g1, g2⟩ | ⟨s, m0, m1, g1, g2, g3, g4, g5⟩
    · left; rw [g1, hm]; exact ⟨rfl, g2⟩
    · obtain ⟨m', q1, q2, q3⟩ := g5 m hm
      exact .inr ⟨s, m0, m1, m', g1, g2, g3, g4, q1, q2, q3⟩

/-- **C33** The total number of elements of a layout (what a reservation or an
allocation for all sections has to provide) is the sum of the sizes of the
ranges of its sections. -/
def Counted (l : LexLayout) : Prop :=
  l.count = (l.e.map fun e => (((e.box.size l.dims).getD 0 : Nat) : Int)).sum

private theorem sum_set {α : Type} (f : α → Int) {a b : α} : ∀ (l : List α) (n : Nat),
    l[n]? = some a → ((l.set n b).map f).sum = (l.map f).sum + (f b - f a)
  | [], n, h => by simp at h
  | x :: l, 0, h => by
    simp only [List.getElem?_cons_zero, Option.some.injEq] at h
    subst h; simp only [List.set_cons_zero, List.map_cons, List.sum_cons]; omega
  | x :: l, n + 1, h => by
    simp only [List.getElem?_cons_succ] at h
    have := sum_set f (b := b) l n h
    simp only [List.set_cons_succ, List.map_cons, List.sum_cons]; omega

private theorem good_size {d : Dims} {e : LexEntry} (h : Good d e) : e.box.size d = some e.count := by
  unfold Good newLexEntry at h
  cases hs : e.box.size d with
  | none => rw [hs] at h; simp at h
  | some c =>
    rw [hs] at h
    simp only at h
    split at h
    · simp at h
    · split at h
      · simp at h
      · split at h
        · simp at h
        · simp only [Option.some.injEq] at h
          rw [← h]

private theorem reuseLex_counted {lay lay' : LexLayout} {i : Nat} {old : LexLayout} {s : Nat} {b : Bool}
    (hg : lay.GoodL) (ho : old.GoodL) (hd : old.dims = lay.dims)
    (h : reuseLex lay i old s = some (lay', b)) (hc : Counted lay) :
    Counted lay' ∧ lay'.GoodL ∧ lay'.dims = lay.dims := by
  unfold reuseLex at h
  cases hn : lay.e[i]? with
  | none => rw [hn] at h; simp at h
  | some eN =>
    cases hO : old.e[s]? with
    | none => rw [hn, hO] at h; simp at h
    | some eO =>
      rw [hn, hO] at h
      simp only at h
      have gN := good_of_getElem? hg hn
      have gO := good_of_getElem? ho hO
      rw [hd] at gO
      split at h
      · simp only [Option.some.injEq, Prod.mk.injEq] at h
        rw [← h.1]
        refine ⟨?_, ?_, rfl⟩
        · unfold Counted at hc ⊢
          simp only
          rw [sum_set _ lay.e i hn, ← hc, good_size gN, good_size gO]
          simp
        · intro e he
          rcases List.mem_or_eq_of_mem_set he with h1 | h1
          · exact hg e h1
          · rw [h1]; exact gO
      · simp only [Option.some.injEq, Prod.mk.injEq] at h
        rw [← h.1]; exact ⟨hc, hg, rfl⟩

private theorem findReuse_counted {lay : LexLayout} {i : Nat} {old : LexLayout}
    (hg : lay.GoodL) (ho : old.GoodL) (hd : old.dims = lay.dims) (hc : Counted lay) :
    ∀ (ms : List DMap) (s : Nat) {lay' : LexLayout} {r : Nat × DMap},
      findReuse lay i old s ms = some (some (lay', r)) →
      Counted lay' ∧ lay'.GoodL ∧ lay'.dims = lay.dims
  | [], s, lay', r, h => by simp [findReuse] at h
  | m :: ms, s, lay', r, h => by
    unfold findReuse at h
    split at h
    · exact findReuse_counted hg ho hd hc ms _ h
    · split at h
      · exact findReuse_counted hg ho hd hc ms _ h
      · split at h
        · simp at h
        · rename_i h1
          simp only [Option.some.injEq, Prod.mk.injEq] at h
          rw [← h.1]; exact reuseLex_counted hg ho hd h1 hc
        · exact findReuse_counted hg ho hd hc ms _ h

private theorem reuseLoop_counted : ∀ (n i : Nat) (to fr : MList) {to' fr' : MList},
    to.lay.GoodL → fr.lay.GoodL → fr.lay.dims = to.lay.dims → Counted to.lay →
    reuseLoop n i to fr = some (to', fr') → Counted to'.lay ∧ fr'.lay = fr.lay
  | 0, i, to, fr, to', fr', _, _, _, hc, h => by
    simp only [reuseLoop, Option.some.injEq, Prod.mk.injEq] at h
    rw [← h.1, ← h.2]; exact ⟨hc, rfl⟩
  | n + 1, i, to, fr, to', fr', hg, ho, hd, hc, h => by
    unfold reuseLoop at h
    split at h
    · simp at h
    · exact reuseLoop_counted n _ to fr hg ho hd hc h
    · rename_i h1
      obtain ⟨c1, c2, c3⟩ := findReuse_counted hg ho hd hc _ _ h1
      split at h
      · simp at h
      · split at h
        · simp at h
        · have key := fun a b c d => reuseLoop_counted n _ _ _ a b c d h
          exact key c2 ho (hd.trans c3.symm) c1

/-- **C33** The total number of elements is right for a created layout, and it
is adapted if sections take over larger allocations; that of the old layout
does not change. -/
theorem C33_count :
    (∀ (d : Dims) (ranges : List Box) (ml : MList), prepMaps d ranges = some ml → Counted ml.lay) ∧
    (∀ (to fr to' fr' : MList), to.OK → fr.OK → fr.lay.dims = to.lay.dims →
      checkMapReuse to fr = some (to', fr') → Counted to.lay →
      Counted to'.lay ∧ fr'.lay.count = fr.lay.count) := by
  constructor
  · intro d ranges ml h
    have hg := (prepMaps_ok h).1.good
    unfold prepMaps newLayoutLex at h
    split at h
    · simp at h
    · rename_i l hl
      split at hl
      · simp at hl
      · rename_i es _
        simp only [Option.some.injEq] at hl h
        subst hl; subst h
        unfold Counted
        simp only
        congr 1
        apply List.map_congr_left
        intro e he
        rw [good_size (hg e he)]; rfl
  · intro to fr to' fr' hto hfr hd h hc
    unfold checkMapReuse at h
    split at h
    · simp only [Option.some.injEq, Prod.mk.injEq] at h
      rw [← h.1, ← h.2]; exact ⟨hc, rfl⟩
    · obtain ⟨q1, q2⟩ := reuseLoop_counted _ _ to fr hto.good hfr.good hd hc h
      exact ⟨q1, by rw [q2]⟩

/-- **C33** Access by an application with local indexes (base pointer and
strides from `laik_get_map_1d/2d/3d`) reaches the same cell as pack, unpack and
copy, also for embedded mappings. -/
theorem C33_local_access {ml : MList} (h : ml.OK) {i : Nat} {m : DMap} {s : Int}
    (hm : ml.maps[i]? = some m) (hs : m.start = some s) {p : Idx}
    (hp : Mem ml.lay.dims m.required p) :
    ∃ a, localAddr ml i p = some a ∧ ml.addr i p = some a := by
  have hlt := (List.getElem?_eq_some_iff.1 hm).1
  have he : ml.lay.e[i]? = some (ml.lay.e[i]'(by rw [h.len]; exact hlt)) := List.getElem?_eq_getElem _
  generalize ml.lay.e[i]'(by rw [h.len]; exact hlt) = e at he
  rcases h.maps i m e hm he with ⟨g, _, _⟩ | ⟨s', g⟩
  · rw [hs] at g; simp at g
  · have : s' = s := by
      have := g.start; rw [hs] at this; simpa using this.symm
    subst this
    have hg := good_of_getElem? h.good he
    have hpb : Mem ml.lay.dims e.box p := by rw [g.box]; exact g.sub p hp
    have hb := off_bounds hg hpb
    refine ⟨s' + e.off ml.lay.dims p, ?_, by simp [MList.addr, hm, hs, offsetLex, he, hb]⟩
    unfold localAddr lexStride
    rw [hm]; simp only
    rw [g.base]; simp only
    rw [he]
    cases hd : ml.lay.dims
    · simp [LexEntry.off, subIndex, Dims.toNat]; omega
    · simp [LexEntry.off, subIndex, Dims.toNat, Int.sub_mul]; omega
    · simp [LexEntry.off, subIndex, Dims.toNat, Int.sub_mul]; omega

/-- The address function of the public API agrees with the cells used by the
library. -/
def GetMapAddrOK (ml : MList) (i : Nat) (m : DMap) : Prop :=
  ∀ p, Mem ml.lay.dims m.required p → getMapAddr ml i p = ml.addr i p

/-- **C33, partial** `laik_get_map_addr` is right if the required range starts
where the allocation starts.  Missing (false of the code): mappings embedded at
another place, see `C33_get_map_addr_wrong`. -/
theorem C33_get_map_addr_partial {ml : MList} (h : ml.OK) {i : Nat} {m : DMap}
    (hm : ml.maps[i]? = some m) (hsame : m.required.lo = m.allocated.lo ∨ m.start = none) :
    GetMapAddrOK ml i m := by
  intro p hp
  have hlt := (List.getElem?_eq_some_iff.1 hm).1
  have he : ml.lay.e[i]? = some (ml.lay.e[i]'(by rw [h.len]; exact hlt)) := List.getElem?_eq_getElem _
  generalize ml.lay.e[i]'(by rw [h.len]; exact hlt) = e at he
  unfold getMapAddr MList.addr
  rw [hm]; simp only
  rcases h.maps i m e hm he with ⟨g1, g2, _⟩ | ⟨s, g⟩
  · rw [g1, g2]
  · rw [g.start, g.base]
    have hz : e.off ml.lay.dims m.required.lo = 0 := by
      rcases hsame with hs | hs
      · rw [hs, ← g.box]; cases ml.lay.dims <;> simp [LexEntry.off]
      · rw [g.start] at hs; simp at hs
    rw [hz]
    cases offsetLex ml.lay i p <;> simp

/-- **C33** It is wrong in all other cases: with memory at another place, each
index with an address gets the address of another index or outside. -/
theorem C33_get_map_addr_iff {ml : MList} (h : ml.OK) {i : Nat} {m : DMap} {s : Int}
    (hm : ml.maps[i]? = some m) (hs : m.start = some s) :
    GetMapAddrOK ml i m ↔ ml.addr i m.required.lo = some s := by
  have hlt := (List.getElem?_eq_some_iff.1 hm).1
  have he : ml.lay.e[i]? = some (ml.lay.e[i]'(by rw [h.len]; exact hlt)) := List.getElem?_eq_getElem _
  generalize ml.lay.e[i]'(by rw [h.len]; exact hlt) = e at he
  have hne := h.ne m (List.mem_of_getElem? hm)
  have hlo := mem_lo_of_nonempty _ _ ((not_isEmpty_iff ml.lay.dims m.required).2 hne)
  rcases h.maps i m e hm he with ⟨g1, _, _⟩ | ⟨s', g⟩
  · rw [g1] at hs; simp at hs
  · have : s' = s := by
      have := g.start; rw [hs] at this; simpa using this.symm
    subst this
    have hg := good_of_getElem? h.good he
    have hb := off_bounds hg (g.box ▸ g.sub _ hlo)
    have ha : ml.addr i m.required.lo = some (s' + e.off ml.lay.dims m.required.lo) := by
      simp [MList.addr, hm, hs, offsetLex, he, hb]
    constructor
    · intro hok
      have h1 := hok _ hlo
      rw [ha] at h1 ⊢
      simp [getMapAddr, hm, g.base, offsetLex, he, hb] at h1
      rw [h1]
    · intro h0 p hp
      rw [ha] at h0
      simp at h0
      unfold getMapAddr MList.addr
      rw [hm]; simp only
      rw [hs, g.base, h0]
      cases offsetLex ml.lay i p <;> simp

/-- A mapping of a list as seen by pack, unpack and copy. -/
def Lay.MList.lmap (ml : MList) (i : Nat) : Option LMap :=
  match ml.maps[i]? with
  | some m =>
    match m.start, m.base with
    | some s, some b => some ⟨ml.lay, i, s, b, m.required, m.allocated⟩
    | _, _ => none
  | none => none

/-- **C33** Each mapping with memory of a consistent list meets the
requirements of the theorems about pack, unpack (C31) and copy (C32). -/
theorem C33_mapping_wf {ml : MList} (h : ml.OK) {i : Nat} {l : LMap} (hl : ml.lmap i = some l) :
    l.WF ∧ ∀ p, l.addr p = ml.addr i p := by
  unfold MList.lmap at hl
  cases hm : ml.maps[i]? with
  | none => rw [hm] at hl; simp at hl
  | some m =>
    rw [hm] at hl
    simp only at hl
    cases hs : m.start with
    | none => rw [hs] at hl; simp at hl
    | some s =>
      cases hb : m.base with
      | none => rw [hs, hb] at hl; simp at hl
      | some b =>
        rw [hs, hb] at hl
        simp only [Option.some.injEq] at hl
        subst hl
        have hlt := (List.getElem?_eq_some_iff.1 hm).1
        have he : ml.lay.e[i]? = some (ml.lay.e[i]'(by rw [h.len]; exact hlt)) :=
          List.getElem?_eq_getElem _
        generalize ml.lay.e[i]'(by rw [h.len]; exact hlt) = e at he
        refine ⟨⟨h.good, e, he, ?_⟩, fun p => by simp [LMap.addr, MList.addr, hm, hs]⟩
        rcases h.maps i m e hm he with ⟨g1, _, _⟩ | ⟨s', g⟩
        · rw [g1] at hs; simp at hs
        · rw [g.box]; exact g.sub

/-! A 2d mapping with ghost cells, shrunk. -/
namespace ReuseEx
def oldR : Box := ⟨⟨0, 0, 0⟩, ⟨6, 4, 0⟩⟩
def newR : Box := ⟨⟨1, 1, 0⟩, ⟨5, 3, 0⟩⟩
def fr : MList := ⟨⟨.d2, 24, [⟨oldR, 24, 1, 6, 0⟩]⟩, [⟨some 100, some 100, oldR, oldR, none⟩]⟩
def to0 : MList := ⟨⟨.d2, 8, [⟨newR, 8, 1, 4, 0⟩]⟩, [⟨none, none, newR, newR, none⟩]⟩
/-- the result -/
def to1 : MList := ⟨⟨.d2, 24, [⟨oldR, 24, 1, 6, 0⟩]⟩, [⟨some 100, some 107, newR, oldR, none⟩]⟩

example : prepMaps .d2 [newR] = some to0 := by decide
example : (prepMaps .d2 [oldR]).bind (allocMap · 0 100) = some fr := by decide
example : checkMapReuse to0 fr =
    some (to1, ⟨fr.lay, [⟨some 100, some 100, oldR, oldR, some 0⟩]⟩) := by decide
theorem to_ok : to0.OK := (prepMaps_ok (d := .d2) (ranges := [newR]) (by decide)).1
theorem fr_ok : fr.OK :=
  allocMap_ok (prepMaps_ok (d := .d2) (ranges := [oldR]) (ml := ⟨fr.lay, [⟨none, none, oldR, oldR, none⟩]⟩)
    (by decide)).1 (i := 0) (a := 100) (by decide)
example : to1.addr 0 ⟨2, 2, 0⟩ = some 114 ∧ fr.addr 0 ⟨2, 2, 0⟩ = some 114 ∧
    localAddr to1 0 ⟨2, 2, 0⟩ = some 114 := by decide
example := C33_same_cells to_ok fr_ok rfl (by decide)
example : Counted to0.lay ∧ Counted to1.lay ∧ to0.lay.count = 8 ∧ to1.lay.count = 24 :=
  ⟨C33_count.1 .d2 [newR] to0 (by decide),
    (C33_count.2 to0 fr to1 ⟨fr.lay, [⟨some 100, some 100, oldR, oldR, some 0⟩]⟩ to_ok fr_ok rfl (by decide) (C33_count.1 .d2 [newR] to0 (by decide))).1,
    rfl, rfl⟩
end ReuseEx

/-- **C33 fails** of the code for `laik_get_map_addr`: for a mapping embedded in
a larger allocation it adds the offset of the first required index twice. -/
theorem C33_get_map_addr_wrong :
    ∃ fr', checkMapReuse ReuseEx.to0 ReuseEx.fr = some (ReuseEx.to1, fr') ∧ ReuseEx.to1.OK ∧
      Mem .d2 ReuseEx.newR ⟨2, 2, 0⟩ ∧
      ReuseEx.to1.addr 0 ⟨2, 2, 0⟩ = some 114 ∧ getMapAddr ReuseEx.to1 0 ⟨2, 2, 0⟩ = some 121 := by
  have h : checkMapReuse ReuseEx.to0 ReuseEx.fr = some (ReuseEx.to1,
    ⟨ReuseEx.fr.lay, [⟨some 100, some 100, ReuseEx.oldR, ReuseEx.oldR, some 0⟩]⟩) := by decide
  exact ⟨_, h, (C33_consistent.2.2 _ _ _ _ ReuseEx.to_ok ReuseEx.fr_ok rfl (by decide) h).1,
    by rw [mem_d2]; decide, by decide, by decide⟩

end Laik
