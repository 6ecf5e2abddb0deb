import Verif.Model.LayoutPack
/-!
# Model of mapping lists and of the re-use of allocations (`src/data.c`)
-/

namespace Laik.Lay

/-- One mapping of a mapping list (`struct _Laik_Mapping`,
include/laik/data-internal.h), without layout (all mappings of a list created
by `prepareMaps` use the layout of the list, section = position in the list,
src/data.c 383-384).  `start`/`base`: `none` is NULL; addresses count
elements.  `reusedFor`: `none` is -1. -/
structure DMap where
  start : Option Int
  base : Option Int
  required : Box
  allocated : Box
  reusedFor : Option Nat
  deriving DecidableEq, Repr

/-- `Laik_MappingList` without reservation. -/
structure MList where
  lay : LexLayout
  maps : List DMap
  deriving DecidableEq, Repr

/-- `prepareMaps`, src/data.c 373-396 (no reservation, no provided memory):
one mapping without memory per covering range. -/
def prepMaps (d : Dims) (ranges : List Box) : Option MList :=
  match newLayoutLex d ranges with
  | none => none
  | some l => some ⟨l, ranges.map fun r => ⟨none, none, r, r, none⟩⟩

/-- Address of an index in mapping `i`: `start + offset(section, idx)`. -/
def MList.addr (ml : MList) (i : Nat) (p : Idx) : Option Int :=
  match ml.maps[i]? with
  | none => none
  | some m =>
    match m.start with
    | none => none
    | some s => (offsetLex ml.lay i p).map (s + ·)

/-- `laik_allocateMap` / `laik_map_set_allocation`, src/data.c 468-531: memory
for all required indexes at address `a` for mapping `i`; `none`: failed
assert (already allocated). -/
def allocMap (ml : MList) (i : Nat) (a : Int) : Option MList :=
  match ml.maps[i]? with
  | none => none
  | some m =>
    if m.base.isSome then some ml
    else if m.start.isSome then none
    else some { ml with
      maps := ml.maps.set i { m with start := some a, base := some a, allocated := m.required } }

/-- `initEmbeddedMapping`, src/data.c 609-630: the new `toMap`; `lay` is the
layout of the new list, `i` the position of `toMap`.  `none`: failed assert. -/
def initEmbedded (lay : LexLayout) (i : Nat) (toMap fromMap : DMap) : Option DMap :=
  if ¬ toMap.required.within lay.dims fromMap.allocated then none
  else
    match fromMap.start, offsetLex lay i toMap.required.lo with
    | some s, some off =>
      some { toMap with start := some s, allocated := fromMap.allocated, base := some (s + off) }
    | _, _ => none

/-- Search loop of `checkMapReuse`, src/data.c 656-666, starting at mapping
`s` of the old list: the changed new layout and the old mapping found. -/
def findReuse (lay : LexLayout) (i : Nat) (old : LexLayout) :
    Nat → List DMap → Option (Option (LexLayout × Nat × DMap))
  | _, [] => some none
  | s, m :: ms =>
    if m.base = none then findReuse lay i old (s + 1) ms
    else if m.reusedFor ≠ none then findReuse lay i old (s + 1) ms
    else
      match reuseLex lay i old s with
      | none => none
      | some (lay', true) => some (some (lay', s, m))
      | some (_, false) => findReuse lay i old (s + 1) ms

/-- Loop of `checkMapReuse` over the new mappings, src/data.c 651-691, from
mapping `i` on (`n` mappings left). -/
def reuseLoop : Nat → Nat → MList → MList → Option (MList × MList)
  | 0, _, to, fr => some (to, fr)
  | n + 1, i, to, fr =>
    match findReuse to.lay i fr.lay 0 fr.maps with
    | none => none
    | some none => reuseLoop n (i + 1) to fr
    | some (some (lay', s, m)) =>
      match to.maps[i]? with
      | none => none
      | some tm =>
        match initEmbedded lay' i tm m with
        | none => none
        | some tm' =>
          reuseLoop n (i + 1) ⟨lay', to.maps.set i tm'⟩
            { fr with maps := fr.maps.set s { m with reusedFor := some i } }

/-- `checkMapReuse`, src/data.c 637-692, for lists with lexicographic layouts
and without reservation. -/
def checkMapReuse (to fr : MList) : Option (MList × MList) :=
  if fr.maps.length = 0 ∨ to.maps.length = 0 then some (to, fr)
  else reuseLoop to.maps.length 0 to fr

/-- `laik_get_map_addr`, src/data.c 1409-1416. -/
def getMapAddr (ml : MList) (i : Nat) (p : Idx) : Option Int :=
  match ml.maps[i]? with
  | none => none
  | some m =>
    match m.base, offsetLex ml.lay i p with
    | some b, some off => some (b + off)
    | _, _ => none

/-- Access of an application through `laik_get_map_1d/2d/3d`, src/data.c
1462-1542: `base[lz * zstride + ly * ystride + lx]` with indexes local to the
required range. -/
def localAddr (ml : MList) (i : Nat) (p : Idx) : Option Int :=
  match ml.maps[i]? with
  | none => none
  | some m =>
    match m.base with
    | none => none
    | some b =>
      let q := subIndex p m.required.lo
      match ml.lay.dims with
      | .d1 => some (b + q.x)
      | .d2 =>
        match lexStride ml.lay i 1 with
        | none => none
        | some ys => some (b + q.y * ys + q.x)
      | .d3 =>
        match lexStride ml.lay i 1, lexStride ml.lay i 2 with
        | some ys, some zs => some (b + q.z * zs + q.y * ys + q.x)
        | _, _ => none

/-! ### Invariant of mapping lists -/

/-- A mapping with memory: its layout entry describes the allocation, which
contains all required indexes; `base` is the address of the first required
index. -/
structure Allocd (lay : LexLayout) (i : Nat) (m : DMap) (e : LexEntry) (s : Int) : Prop where
  start : m.start = some s
  box : e.box = m.allocated
  sub : SubsetOf lay.dims m.required m.allocated
  base : m.base = some (s + e.off lay.dims m.required.lo)

/-- Consistency of a mapping list. -/
structure MList.OK (ml : MList) : Prop where
  good : ml.lay.GoodL
  len : ml.lay.e.length = ml.maps.length
  ne : ∀ m ∈ ml.maps, ∃ p, Mem ml.lay.dims m.required p
  maps : ∀ (i : Nat) (m : DMap) (e : LexEntry), ml.maps[i]? = some m → ml.lay.e[i]? = some e →
    (m.start = none ∧ m.base = none ∧ e.box = m.required) ∨ ∃ s, Allocd ml.lay i m e s

end Laik.Lay
