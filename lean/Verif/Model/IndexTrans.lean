import Verif.Model.RangeList
/-!
# Model of covering ranges and 1d index translation (`src/data.c`)
-/

namespace Laik

/-- Rest of the loops of `coveringRanges`, src/data.c 312-322, while map
`mapNo` with range `cur` is being built. -/
def coverAcc (d : Dims) (cur : Box) (mapNo : Nat) : List TR → Option (List Box)
  | [] => some [cur]
  | t :: ts =>
    if t.mapNo = mapNo then coverAcc d (cur.expand d t.box) mapNo ts
    else if t.mapNo = (mapNo + 1 : Nat) then
      (coverAcc d t.box (mapNo + 1) ts).map (cur :: ·)
    else none

/-- `coveringRanges`, src/data.c 303-330, on the task ranges of the own
process: the required range of each map.  `none`: failed assert 314. -/
def coveringRanges (d : Dims) : List TR → Option (List Box)
  | [] => some []
  | t :: ts => if t.mapNo = 0 then coverAcc d t.box 0 ts else none

/-- Loop of `laik_global2local_1d` (src/data.c 1549-1557) and
`laik_global2maplocal_1d` (1566-1574), from map `n` on: map number and local
index. -/
def g2lLoop (g : Int) : Nat → List Box → Option (Nat × Nat)
  | _, [] => none
  | n, r :: rs =>
    if g < r.lo.x then g2lLoop g (n + 1) rs
    else if g ≥ r.hi.x then g2lLoop g (n + 1) rs
    else some (n, (g - r.lo.x).toNat)

/-- `laik_global2local_1d`, src/data.c 1545-1559: number of the mapping returned
and local index; `maps` are the required ranges of the active mappings (`none`:
no active mappings). -/
def global2local (maps : Option (List Box)) (g : Int) : Option (Nat × Nat) :=
  match maps with
  | none => none
  | some rs => g2lLoop g 0 rs

/-- `laik_global2maplocal_1d`, src/data.c 1561-1579: the value of `*mapNo`
afterwards (`none`: left unchanged) and the mapping and local index found. -/
def global2maplocal (maps : Option (List Box)) (g : Int) : Option Int × Option (Nat × Nat) :=
  match maps with
  | none => (none, none)
  | some rs =>
    match g2lLoop g 0 rs with
    | some (n, l) => (some n, some (n, l))
    | none => (some (-1), none)

/-- `laik_maplocal2global_1d`, src/data.c 1596-1607 (for `mapNo ≥ 0`); `count`
of a mapping is the size of its required range (381).  `none`: failed assert, or
access outside of the mapping list. -/
def maplocal2global (maps : Option (List Box)) (n l : Nat) : Option Int :=
  match maps with
  | none => none
  | some rs =>
    match rs[n]? with
    | none => none
    | some r => if l < (r.hi.x - r.lo.x).toNat then some (r.lo.x + l) else none

/-- `laik_local2global_1d`, src/data.c 1582-1593; `none`: failed assert. -/
def local2global (maps : Option (List Box)) (l : Nat) : Option Int :=
  match maps with
  | some [r] => if l < (r.hi.x - r.lo.x).toNat then some (r.lo.x + l) else none
  | _ => none

end Laik
