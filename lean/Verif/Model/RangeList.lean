import Verif.Model.Range
/-!
# Model of range lists (`src/rangelist.c` 306-704)
-/

namespace Laik

/-- `Laik_TaskRange_Gen` (include/laik/space-internal.h): owner, range, tag and
map number.  The user data pointer is not modelled.  Task ids are naturals: a
negative id fails the same assert as one that is too large. -/
structure TR where
  task : Nat
  tag : Int
  box : Box
  mapNo : Int := 0
  deriving DecidableEq, Repr

/-- `laik_rangelist_append`, src/rangelist.c 307-336, generic format; `none`:
failed asserts in 324 (task id) and 325 (within space). -/
def rlAppend (d : Dims) (space : Box) (tidCount : Nat) (l : List TR) (tid : Nat) (b : Box)
    (tag : Int) : Option (List TR) :=
  if tid < tidCount ∧ b.within d space = true then some (l ++ [⟨tid, tag, b, 0⟩]) else none

/-- `laik_rangelist_append_single1d`, src/rangelist.c 339-363; `none`: failed
asserts 355, 356. -/
def siAppend (space : Box) (tidCount : Nat) (l : List (Nat × Int)) (tid : Nat) (idx : Int) :
    Option (List (Nat × Int)) :=
  if tid < tidCount ∧ space.lo.x ≤ idx ∧ idx < space.hi.x then some (l ++ [(tid, idx)]) else none

/-- `trgen_cmp(a, b) <= 0`, src/rangelist.c 368-383 (`int` subtraction without
overflow). -/
def trLe (a b : TR) : Prop :=
  if a.task = b.task then
    if a.tag = b.tag then a.box.lo.x ≤ b.box.lo.x else a.tag ≤ b.tag
  else a.task ≤ b.task

/-- `sortRanges`, src/rangelist.c 398-409: `qsort` may return any sorted
permutation. -/
def IsSortOf (s l : List TR) : Prop := s.Perm l ∧ s.Pairwise trLe

/-- `mergeSortedRanges`, src/rangelist.c 426-442: traversal with current
destination entry `cur`. -/
def mergeGo (cur : TR) : List TR → List TR
  | [] => [cur]
  | s :: rest =>
    if s.task ≠ cur.task ∨ s.tag ≠ cur.tag ∨ s.box.lo.x > cur.box.hi.x then
      cur :: mergeGo s rest
    else if cur.box.hi.x < s.box.hi.x then
      mergeGo { cur with box := { cur.box with hi := { cur.box.hi with x := s.box.hi.x } } } rest
    else mergeGo cur rest

/-- `mergeSortedRanges`, src/rangelist.c 411-443.  `none`: failed
`assert(list->trange)` (413; the array is only allocated by the first append)
or `assert(dims == 1)` (416). -/
def mergeSorted (d : Dims) : List TR → Option (List TR)
  | [] => none
  | t :: ts => if d = .d1 then some (mergeGo t ts) else none

/-- Inner loop of `updateOffsets` for one task, src/rangelist.c 458-470:
processed entries (with map numbers) and the rest; `none`: failed assert 463. -/
def takeTask (task : Nat) (mapNo lastTag : Int) : List TR → Option (List TR × List TR)
  | [] => some ([], [])
  | t :: ts =>
    if t.task > task then some ([], t :: ts)
    else if t.task ≠ task then none
    else
      let m := if t.tag = 0 ∨ t.tag ≠ lastTag then mapNo + 1 else mapNo
      let g := if t.tag = 0 ∨ t.tag ≠ lastTag then t.tag else lastTag
      match takeTask task m g ts with
      | none => none
      | some (done, rest) => some ({ t with mapNo := m } :: done, rest)

/-- Outer loop of `updateOffsets`, src/rangelist.c 455-473, for the tasks
`task, task+1, ...` (`n` of them): offsets and updated entries. -/
def updLoop : (n : Nat) → (task off : Nat) → List TR → Option (List Nat × List TR)
  | 0, _, off, l => if l = [] then some ([off], []) else none
  | n+1, task, off, l =>
    match takeTask task (-1) (-1) l with
    | none => none
    | some (done, rest) =>
      match updLoop n (task + 1) (off + done.length) rest with
      | none => none
      | some (offs, out) => some (off :: offs, done ++ out)

/-- A frozen `Laik_RangeList`; `mapTid`/`mapOff` is the lazily filled cache of
map offsets (include/laik/space-internal.h 109-111). -/
structure RangeList where
  tidCount : Nat
  tr : List TR
  off : List Nat
  mapTid : Option Nat := none
  mapOff : List Nat := []
  deriving DecidableEq, Repr

/-- `updateOffsets`, src/rangelist.c 447-474. -/
def updateOffsets (tidCount : Nat) (l : List TR) : Option (List Nat × List TR) :=
  updLoop tidCount 0 0 l

/-- `laik_rangelist_freeze` for generic ranges, src/rangelist.c 660-668, where
`sorted` is the result of `sortRanges`. -/
def freeze (d : Dims) (tidCount : Nat) (doMerge : Bool) (sorted : List TR) : Option RangeList :=
  match (if doMerge then mergeSorted d sorted else some sorted) with
  | none => none
  | some l =>
    match updateOffsets tidCount l with
    | none => none
    | some (off, tr) => some { tidCount, tr, off }

/-! ### Single-index format -/

/-- `tss1d_cmp(a, b) <= 0`, src/rangelist.c 385-396. -/
def siLe (a b : Nat × Int) : Prop := if a.1 = b.1 then a.2 ≤ b.2 else a.1 ≤ b.1

/-- Counting loop, src/rangelist.c 490-504. -/
def siCount (task : Nat) (idx : Int) : List (Nat × Int) → Nat
  | [] => 1
  | (t, i) :: rest =>
    if t = task then
      if i = idx then siCount task idx rest
      else if i = idx + 1 then siCount task (idx + 1) rest
      else 1 + siCount t i rest
    else 1 + siCount t i rest

/-- Conversion loop, src/rangelist.c 514-544. -/
def siGo (task : Nat) (idx0 idx : Int) : List (Nat × Int) → List TR
  | [] => [⟨task, 0, ⟨⟨idx0, 0, 0⟩, ⟨idx + 1, 0, 0⟩⟩, 0⟩]
  | (t, i) :: rest =>
    if t = task then
      if i = idx then siGo task idx0 idx rest
      else if i = idx + 1 then siGo task idx0 (idx + 1) rest
      else ⟨task, 0, ⟨⟨idx0, 0, 0⟩, ⟨idx + 1, 0, 0⟩⟩, 0⟩ :: siGo t i i rest
    else ⟨task, 0, ⟨⟨idx0, 0, 0⟩, ⟨idx + 1, 0, 0⟩⟩, 0⟩ :: siGo t i i rest

/-- Offsets without changing map numbers (all 0), src/rangelist.c 550-562. -/
def takeTaskSI (task : Nat) : List TR → Option (List TR × List TR)
  | [] => some ([], [])
  | t :: ts =>
    if t.task > task then some ([], t :: ts)
    else if t.task ≠ task then none
    else match takeTaskSI task ts with
      | none => none
      | some (done, rest) => some (t :: done, rest)

def updLoopSI : (n : Nat) → (task off : Nat) → List TR → Option (List Nat × List TR)
  | 0, _, off, l => if l = [] then some ([off], []) else none
  | n+1, task, off, l =>
    match takeTaskSI task l with
    | none => none
    | some (done, rest) =>
      match updLoopSI n (task + 1) (off + done.length) rest with
      | none => none
      | some (offs, out) => some (off :: offs, done ++ out)

/-- `updateOffsetsSI`, src/rangelist.c 478-563, where `sorted` is the result
of its `qsort`; `none`: failed asserts 481, 545, 557, 562. -/
def freezeSI (tidCount : Nat) : List (Nat × Int) → Option RangeList
  | [] => none
  | (t, i) :: rest =>
    if siCount t i rest = (siGo t i i rest).length then
      match updLoopSI tidCount 0 0 (siGo t i i rest) with
      | none => none
      | some (off, tr) => some { tidCount, tr, off }
    else none

/-! ### Access -/

/-- `laik_rangelist_tidrangecount`, src/rangelist.c 114-120. -/
def RangeList.tidRangeCount (l : RangeList) (tid : Nat) : Option Nat :=
  if tid < l.tidCount then
    match l.off[tid+1]?, l.off[tid]? with
    | some b, some a => some (b - a)
    | _, _ => none
  else none

/-- `laik_rangelist_tidmapcount`, src/rangelist.c 123-131. -/
def RangeList.tidMapCount (l : RangeList) (tid : Nat) : Option Int :=
  if tid < l.tidCount then
    match l.off[tid+1]?, l.off[tid]? with
    | some b, some a =>
      if b = a then some 0
      else (l.tr[b - 1]?).map (fun t => t.mapNo + 1)
    | _, _ => none
  else none

/-- `laik_rangelist_tidrange`, src/rangelist.c 147-158: outer `none` abort,
inner `none` = returned 0. -/
def RangeList.tidRange (l : RangeList) (tid n : Nat) : Option (Option TR) :=
  match l.tidRangeCount tid with
  | none => none
  | some count =>
    if n ≥ count then some none
    else match l.off[tid]? with
      | none => none
      | some o => match l.tr[o + n]? with
        | none => none
        | some t => if t.task = tid then some (some t) else none

/-- Inner loop of `laik_updateMapOffsets`, src/rangelist.c 597-602: number of
entries with this map number at the front; `none`: failed assert 600. -/
def takeMap (mapNo : Int) : List TR → Option (Nat × List TR)
  | [] => some (0, [])
  | t :: ts =>
    if t.mapNo > mapNo then some (0, t :: ts)
    else if t.mapNo ≠ mapNo then none
    else match takeMap mapNo ts with
      | none => none
      | some (n, rest) => some (n + 1, rest)

/-- Outer loop of `laik_updateMapOffsets`, src/rangelist.c 593-605. -/
def mapOffLoop : (n : Nat) → (mapNo : Nat) → (off : Nat) → List TR → Option (List Nat)
  | 0, _, off, l => if l = [] then some [off] else none
  | n+1, mapNo, off, l =>
    match takeMap mapNo l with
    | none => none
    | some (c, rest) => (mapOffLoop n (mapNo + 1) (off + c) rest).map (off :: ·)

/-- `laik_updateMapOffsets`, src/rangelist.c 566-606; `none`: failed assert
(570 when offsets of another task id were calculated before, 573, 600, 605).
A map count that is not positive although ranges exist makes the loop not run
and 605 fail. -/
def RangeList.updateMapOffsets (l : RangeList) (tid : Nat) : Option RangeList :=
  if l.mapTid = some tid then some l
  else if l.mapTid.isSome then none
  else if tid < l.tidCount then
    match l.off[tid]?, l.off[tid+1]?, l.tidMapCount tid with
    | some a, some b, some mc =>
      if b > a then
        match mapOffLoop mc.toNat 0 a ((l.tr.take b).drop a) with
        | none => none
        | some mo => some { l with mapTid := some tid, mapOff := mo }
      else some { l with mapTid := some tid, mapOff := [] }
    | _, _, _ => none
  else none

/-- `laik_rangelist_tidmaprange`, src/rangelist.c 622-641: outer `none` abort,
inner `none` = returned 0. -/
def RangeList.tidMapRange (l : RangeList) (tid mapNo n : Nat) : Option (Option TR) :=
  match l.updateMapOffsets tid with
  | none => none
  | some l =>
    match l.mapOff[mapNo]?, l.mapOff[mapNo+1]? with
    | some a, some b =>
      if n ≥ b - a then some none
      else match l.tr[a + n]? with
        | none => none
        | some t => if t.task = tid ∧ t.mapNo = mapNo then some (some t) else none
    | _, _ => some none

/-- Entries with translated ids, src/rangelist.c 684-690; only used when all
ids can be translated, see `migrateOk`. -/
def translate (idmap : Nat → Option Nat) (l : List TR) : List TR :=
  l.map (fun t => { t with task := (idmap t.task).getD 0 })

/-- The asserts of `laik_rangelist_migrate`: removed ids have no ranges
(678-681), all ids are valid and translate to valid new ids (686, 688). -/
def RangeList.migrateOk (l : RangeList) (idmap : Nat → Option Nat) (newCount : Nat) : Bool :=
  (List.range l.tidCount).all (fun i => (idmap i).isSome || l.off[i]? == l.off[i+1]?) &&
  l.tr.all (fun t => decide (t.task < l.tidCount) &&
    match idmap t.task with
    | none => false
    | some m => decide (m < newCount))

/-- `laik_rangelist_migrate`, src/rangelist.c 673-704, with `idmap[i] = none`
for -1; `sorted` is the result of `sortRanges` on the translated entries.  The
map offset cache is not touched. -/
def RangeList.migrate (l : RangeList) (idmap : Nat → Option Nat) (newCount : Nat)
    (sorted : List TR) : Option RangeList :=
  if l.migrateOk idmap newCount then
    match updateOffsets newCount sorted with
    | none => none
    | some (off, tr) => some { l with tidCount := newCount, tr, off }
  else none

end Laik
