import Verif.Model.Transition2d
/-!
# Model of checks on the shape of a partitioning (`src/rangelist.c` 62-106) and
of their use for reductions in 2d and 3d (`src/space.c` 1441-1476)
-/

namespace Laik

/-- Loop of `laik_rangelist_isAll` from entry `i` on, src/rangelist.c 66-70. -/
def isAllFrom (d : Dims) (space : Box) : (i : Nat) → List TR → Bool
  | _, [] => true
  | i, t :: ts =>
    if t.task ≠ i then false
    else if !t.box.isEqual d space then false
    else isAllFrom d space (i + 1) ts

/-- `laik_rangelist_isAll`, src/rangelist.c 63-72, also
`laik_partitioning_isAll`, src/partitioning.c 525-532. -/
def RangeList.isAll (d : Dims) (space : Box) (l : RangeList) : Bool :=
  if l.tr.length ≠ l.tidCount then false else isAllFrom d space 0 l.tr

/-- `laik_rangelist_isSingle`, src/rangelist.c 76-83, also
`laik_partitioning_isSingle`, src/partitioning.c 538-545; `none` is -1. -/
def RangeList.isSingle (d : Dims) (space : Box) (l : RangeList) : Option Nat :=
  match l.tr with
  | [t] => if !t.box.isEqual d space then none else some t.task
  | _ => none

/-- Comparison of entries in `laik_rangelist_isEqual`, src/rangelist.c 98-104;
`none`: failed assert 100. -/
def eqLoop (d : Dims) : List TR → List TR → Option Bool
  | t :: ts, u :: us =>
    if t.task ≠ u.task then none
    else if !t.box.isEqual d u.box then some false
    else eqLoop d ts us
  | _, _ => some true

/-- `laik_rangelist_isEqual`, src/rangelist.c 86-106, also
`laik_partitioning_isEqual`, src/partitioning.c 558-567.  Comparing the
pointers to the spaces is the argument `sameSpace`. -/
def RangeList.isEqual (d : Dims) (sameSpace : Bool) (a b : RangeList) : Option Bool :=
  if a.tidCount ≠ b.tidCount then some false
  else if !sameSpace then some false
  else if a.tr.length ≠ b.tr.length then some false
  else if !(List.range a.tidCount).all (fun i => a.off[i]? == b.off[i]?) then some false
  else eqLoop d a.tr b.tr

/-- Processes which get the result of a reduction: `none` for all (output
group -1), else one process (`getTaskGroupSingle`). -/
abbrev RedOut := Option Nat

/-- Reductions in 2d and 3d, src/space.c 1441-1476: output of the only reduction,
which is on the full space with all processes as input; `none`: failed
`assert(dims == 1)` in 1474 or `assert(task == 0)` in 1462. -/
def reduceMd (d : Dims) (space : Box) (n : Nat) (F T : RangeList) : Option RedOut :=
  if F.isAll d space then
    match T.isSingle d space with
    | none => if T.isAll d space then some none else none
    | some r => if n = 1 then (if r = 0 then some none else none) else some (some r)
  else none

/-- Membership in the output group, `laik_trans_isInGroup`, src/space.c 1695-1705. -/
def RedOut.has (o : RedOut) (t : Nat) : Bool :=
  match o with
  | none => true
  | some r => t == r

/-- Value of an index at process `me` in its target mapping after a reduction as
given by `reduceMd` (`doTransition`, src/data.c 779-876): the backend stores
the result `red` for processes of the output, then `copyMaps` (src/data.c 549-597) copies
the own old value `v` for each local operation which contains the index, unless
the mapping is reused or both mappings are in the same reservation (`shared`).
`old`: value before in the memory of the target mapping. -/
def after2 {V : Type} (d : Dims) (F T : List TR) (me : Nat) (out : RedOut) (shared : Bool)
    (red v old : V) (p : Idx) : V :=
  let x := if out.has me then red else old
  if !shared && (local2 d F T me).any (fun l => decide (Mem d l.1 p)) then v else x

end Laik
