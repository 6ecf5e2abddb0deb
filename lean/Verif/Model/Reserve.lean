import Verif.Model.RangeList
import Verif.Model.ReuseLemmas
/-!
# Model of reservations (`src/data.c` 976-1186)
-/

namespace Laik.Res
open Lay

/-- Number of maps of a partitioning in this process, with the own task ranges
given (`laik_updateMapOffsets`, src/rangelist.c 575-582). -/
def mapCount (own : List TR) : Nat :=
  match own.getLast? with
  | none => 0
  | some t => (t.mapNo + 1).toNat

/-- Task ranges of map `n`: positions `map_off[n]` up to `map_off[n+1]` (see
`C07_maps_partial`). -/
def mapRanges (own : List TR) (n : Nat) : List TR := own.filter fun t => t.mapNo = (n : Int)

/-- `struct mygroup`, src/data.c 979-984, without `resMapNo`. -/
structure Grp where
  part : Nat
  mapNo : Nat
  tag : Int
  deriving DecidableEq, Repr

/-- Body of the loop in step (1b), src/data.c 1048-1061, for map `n` of
partitioning `k`.  `none`: failed assert. -/
def grpOf (k : Nat) (own : List TR) (n : Nat) : Option Grp :=
  match mapRanges own n with
  | [] => none
  | t :: _ => if mapCount own > 1 ∧ ¬ t.tag > 0 then none else some ⟨k, n, t.tag⟩

/-- Loop over the maps of one partitioning, src/data.c 1048. -/
def grpsOf (k : Nat) (own : List TR) : List Nat → Option (List Grp)
  | [] => some []
  | n :: ns =>
    match grpOf k own n, grpsOf k own ns with
    | some g, some gs => some (g :: gs)
    | _, _ => none

/-- Step (1b), src/data.c 1042-1063, from partitioning `k` on. -/
def grpList : Nat → List (List TR) → Option (List Grp)
  | _, [] => some []
  | k, p :: ps =>
    match grpsOf k p (List.range (mapCount p)), grpList (k + 1) ps with
    | some a, some b => some (a ++ b)
    | _, _ => none

/-- Number after the test for a new tag, src/data.c 1070-1073. -/
def nextNo (tag lastTag no : Int) : Int := if tag ≠ lastTag then no + 1 else no

/-- Step (1c) after sorting, src/data.c 1067-1077. -/
def numberGrps : Int → Int → List Grp → Option (List (Grp × Int))
  | _, _, [] => some []
  | lastTag, no, g :: gs =>
    if nextNo g.tag lastTag no < 0 then none
    else
      (numberGrps g.tag (nextNo g.tag lastTag no) gs).map
        ((g, nextNo g.tag lastTag no) :: ·)

/-- Number of combined mappings, `resMapNo + 1`, src/data.c 1078. -/
def mCount (l : List (Grp × Int)) : Nat :=
  match l.getLast? with
  | none => 0
  | some x => (x.2 + 1).toNat

/-- Extension of a range, src/data.c 1120-1123 and 1128-1131: an empty (or not
yet set) range is replaced. -/
def extend (d : Dims) (cur : Option Box) (b : Box) : Box :=
  match cur with
  | none => b
  | some c => if c.isEmpty d then b else c.expand d b

/-- Loop over the ranges of a map, src/data.c 1115-1124.  `none`: failed
assert (different tags, empty range). -/
def coverLoop (d : Dims) (tag : Int) : Option Box → List TR → Option (Option Box)
  | cur, [] => some cur
  | cur, t :: ts =>
    if t.tag ≠ tag then none
    else
      match t.box.size d with
      | none => none
      | some n => if n = 0 then none else coverLoop d tag (some (extend d cur t.box)) ts

/-- A mapping of one partitioning after step (3): number of the combined
mapping (`baseMapping`) and required range. -/
structure PMap where
  part : Nat
  mapNo : Nat
  base : Nat
  required : Box
  deriving DecidableEq, Repr

/-- Step (3), src/data.c 1095-1132: combined ranges and mappings of the
partitionings.  `none`: failed assert. -/
def linkLoop (d : Dims) (parts : List (List TR)) :
    List (Option Box) → List (Grp × Int) → Option (List (Option Box) × List PMap)
  | bs, [] => some (bs, [])
  | bs, (g, no) :: gs =>
    match parts[g.part]?, bs[no.toNat]? with
    | some own, some cur =>
      match coverLoop d g.tag none (mapRanges own g.mapNo) with
      | some (some b) =>
        match linkLoop d parts (bs.set no.toNat (some (extend d cur b))) gs with
        | some (bs', ms) => some (bs', ⟨g.part, g.mapNo, no.toNat, b⟩ :: ms)
        | none => none
      | _ => none
    | _, _ => none

/-- Step (4), src/data.c 1140-1162: ranges of the combined mappings, which all
must be set and not empty; memory of the size of the range is allocated. -/
def baseBoxes (d : Dims) : List (Option Box) → Option (List Box)
  | [] => some []
  | some b :: bs =>
    match b.size d with
    | none => none
    | some n => if n = 0 then none else (baseBoxes d bs).map (b :: ·)
  | none :: _ => none

/-- A mapping of a partitioning after step (5): number of the allocation used,
required and allocated range, and position of `base` in the allocation. -/
structure RMap where
  base : Nat
  required : Box
  allocated : Box
  baseOff : Int
  deriving DecidableEq, Repr

/-- Body of step (5), src/data.c 1172-1182, with `initEmbeddedMapping`
(609-630); the layout is that of the combined mapping (section 0). -/
def embedRes (d : Dims) (bases : List Box) (m : PMap) : Option RMap :=
  match bases[m.base]? with
  | none => none
  | some b =>
    match newLayoutLex d [b] with
    | none => none
    | some l =>
      if ¬ m.required.within d b then none
      else
        match offsetLex l 0 m.required.lo with
        | none => none
        | some off => some ⟨m.base, m.required, b, off⟩

/-- Result of `laik_reservation_alloc`. -/
structure Reserved where
  bases : List Box
  maps : List PMap
  deriving DecidableEq, Repr

/-- `laik_reservation_alloc`, src/data.c 997-1186, up to step (4), for own task
ranges `parts` of all partitionings added to the reservation, with `gl` the
list of groups after `qsort` (1066). -/
def reserve (d : Dims) (parts : List (List TR)) (gl : List Grp) : Option Reserved :=
  match numberGrps (-1) (-1) gl with
  | none => none
  | some ng =>
    match linkLoop d parts (List.replicate (mCount ng) none) ng with
    | none => none
    | some (bs, ms) =>
      match baseBoxes d bs with
      | none => none
      | some bases => some ⟨bases, ms⟩

/-- The mapping of map `n` of partitioning `k` after step (5). -/
def Reserved.map (r : Reserved) (d : Dims) (k n : Nat) : Option RMap :=
  match r.maps.find? fun m => m.part = k ∧ m.mapNo = n with
  | none => none
  | some m => embedRes d r.bases m

/-- Memory cell of an index in a mapping: number of the allocation and offset
in it. -/
def RMap.cell (d : Dims) (m : RMap) (p : Idx) : Option (Nat × Int) :=
  match newLayoutLex d [m.allocated] with
  | none => none
  | some l => (offsetLex l 0 p).map fun o => (m.base, o)

end Laik.Res
