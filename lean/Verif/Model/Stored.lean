import Verif.Model.Partitioner
import Verif.Model.Transition
/-!
# Model of the range lists stored in a partitioning (`src/partitioning.c` 157-186, 230-474,
`src/partitioner.c` 57-146) for 1d spaces
-/

namespace Laik.Sto

/-- What a partitioner appends in a run: ranges (`laik_append_range`) or single
indices (`laik_append_index_1d`).  Mixing is not allowed (src/rangelist.c 313,
342).  A partitioner is taken to append the same in each run. -/
inductive Body
  | ranges (cs : List Call)
  | singles (l : List (Nat × Int))
  deriving Repr

/-- Partitioner: appended entries and flag `LAIK_PF_Merge`. -/
structure Prog where
  body : Body
  merge : Bool
  deriving Repr

/-- The range passed to the filter for a single index, src/partitioner.c 134. -/
def singleCall (a : Nat × Int) : Call := ⟨a.1, ⟨⟨a.2, 0, 0⟩, ⟨a.2 + 1, 0, 0⟩⟩, 0⟩

/-- `laik_append_index_1d`, src/partitioner.c 129-146. -/
def appendIndex (space : Box) (n : Nat) (f : Option Filter) (l : List (Nat × Int)) (a : Nat × Int) :
    Option (List (Nat × Int)) :=
  match (match f with | none => some true | some f => f.keep (singleCall a)) with
  | none => none
  | some false => some l
  | some true => siAppend space n l a.1 a.2

/-- All single indices appended in a run. -/
def runSingles (space : Box) (n : Nat) (f : Option Filter) (as : List (Nat × Int)) : Option (List (Nat × Int)) :=
  as.foldlM (appendIndex space n f) []

/-- `laik_run_partitioner`, src/partitioner.c 57-105: possible results (the order
of equal entries is up to `qsort`).  If no single index is kept, nothing tells
`laik_rangelist_freeze` about the format (src/rangelist.c 656).  The check for
complete coverage (96-102) is not part of this. -/
inductive Run (space : Box) (n : Nat) (f : Option Filter) (pr : Prog) (L : RangeList) : Prop
  | ranges (cs : List Call) (l s : List TR) (hb : pr.body = .ranges cs)
      (hr : runAppends .d1 space n f cs = some l) (hs : IsSortOf s l) (hf : freeze .d1 n pr.merge s = some L)
  | singles (as l s : List (Nat × Int)) (hb : pr.body = .singles as)
      (hr : runSingles space n f as = some l) (hne : l ≠ []) (hp : s.Perm l) (hs : s.Pairwise siLe)
      (hf : freezeSI n s = some L)
  | noSingles (as : List (Nat × Int)) (hb : pr.body = .singles as)
      (hr : runSingles space n f as = some []) (hf : freeze .d1 n pr.merge [] = some L)

/-- `info` of a list with `filter_tid` or `other` (a pointer),
include/laik/space-internal.h 143-161. -/
inductive Info
  | full
  | single (tid : Nat)
  | inter (other : Nat)
  deriving DecidableEq, Repr

/-- `RangeList_Entry`, include/laik/space-internal.h 154-161. -/
structure Entry where
  info : Info
  ranges : RangeList
  deriving DecidableEq, Repr

/-- `Laik_Partitioning`; the space is an identifier, of the group size and own
rank are kept (`none`: not part of the group); entries with the newest first
(src/partitioning.c 378-379). -/
structure Part where
  space : Nat
  n : Nat
  myid : Option Nat
  prog : Prog
  entries : List Entry

/-- `laik_partitioning_allranges`, src/partitioning.c 306-315. -/
def allranges (p : Part) : Option RangeList :=
  (p.entries.find? (fun e => decide (e.info = .full))).map (·.ranges)

/-- `laik_partitioning_myranges`, src/partitioning.c 318-334. -/
def myranges (p : Part) : Option RangeList :=
  (p.entries.find? (fun e => match e.info with
    | .full => true
    | .single t => decide (p.myid = some t)
    | .inter _ => false)).map (·.ranges)

/-- Loop of `laik_partitioning_interranges`, src/partitioning.c 346-360, with the
address of the other partitioning; the panic for different spaces (341-344) is
`none` in `interranges`. -/
def interLookup (p : Part) (addr : Nat) : Option RangeList :=
  (p.entries.find? (fun e => match e.info with
    | .full => true
    | .single _ => false
    | .inter o => decide (o = addr))).map (·.ranges)

/-- `laik_partitioning_interranges`, src/partitioning.c 337-361: `none` panic,
`some none` 0 returned. -/
def interranges (p p2 : Part) (addr2 : Nat) : Option (Option RangeList) :=
  if p.space = p2.space then some (interLookup p addr2) else none

/-- Own ranges used for an index filter, src/partitioning.c 159-177; `none`:
failed assert 163. -/
def ownPairs (L : RangeList) (tid : Nat) : Option (List (Int × Int)) :=
  if tid < L.tidCount then
    match L.off[tid]?, L.off[tid+1]? with
    | some a, some b => some (((L.tr.take b).drop a).map (fun r => (r.box.lo.x, r.box.hi.x)))
    | _, _ => none
  else none

/-- Filter built in `laik_partitioning_store_intersectranges`, src/partitioning.c
450-467; `none`: panic or failed assert. -/
def interFilter (p p2 : Part) (same : Bool) : Option Filter :=
  if p.space = p2.space then
    match myranges p, myranges p2, p.myid, p2.myid with
    | some l, some l2, some i, some j =>
      match ownPairs l i, ownPairs l2 j with
      | some o1, some o2 => some (mkIdxFilter o1 (if same then [] else o2))
      | _, _ => none
    | _, _, _, _ => none
  else none

/-- Calls of the application. -/
inductive Ev
  | new (a : Nat)
  | free (a : Nat)
  | all (a : Nat)
  | my (a : Nat)
  | inter (a b : Nat)
  deriving DecidableEq, Repr

/-- Partitioning objects by address. -/
abbrev Heap := Nat → Option Part

/-- Changed object at one address. -/
def setP (h : Heap) (a : Nat) (p : Option Part) : Heap := fun b => if b = a then p else h b

/-- `laik_partitioning_add_ranges`, src/partitioning.c 364-382. -/
def addRanges (p : Part) (i : Info) (L : RangeList) : Part := { p with entries := ⟨i, L⟩ :: p.entries }

/-- One call that returns; `sb` gives the sizes of the spaces.
* `new`: `laik_new_empty_partitioning`, src/partitioning.c 279-284,
* `free`: `laik_free_partitioning` 294-302 (other partitionings referring to it
  are not changed),
* `all`: `laik_partitioning_store_allranges` 416-420,
* `my`: `laik_partitioning_store_myranges` 424-437,
* `inter`: `laik_partitioning_store_intersectranges` 444-474. -/
inductive Step (sb : Nat → Box) : Heap → Ev → Heap → Prop
  | new {h : Heap} {a : Nat} {p : Part} (ha : h a = none) (he : p.entries = []) : Step sb h (.new a) (setP h a (some p))
  | free {h : Heap} {a : Nat} {p : Part} (ha : h a = some p) : Step sb h (.free a) (setP h a none)
  | all {h : Heap} {a : Nat} {p : Part} {L : RangeList} (ha : h a = some p)
      (hr : Run (sb p.space) p.n none p.prog L) : Step sb h (.all a) (setP h a (some (addRanges p .full L)))
  | my {h : Heap} {a t : Nat} {p : Part} {L : RangeList} (ha : h a = some p) (hm : p.myid = some t)
      (hr : Run (sb p.space) p.n (some (.tid (some t))) p.prog L) :
      Step sb h (.my a) (setP h a (some (addRanges p (.single t) L)))
  | outside {h : Heap} {a : Nat} {p : Part} (ha : h a = some p) (hm : p.myid = none) : Step sb h (.my a) h
  | inter {h : Heap} {a b : Nat} {p q : Part} {f : Filter} {L : RangeList} (ha : h a = some p) (hb : h b = some q)
      (hf : interFilter p q (decide (a = b)) = some f) (hr : Run (sb p.space) p.n (some f) p.prog L) :
      Step sb h (.inter a b) (setP h a (some (addRanges p (.inter b) L)))

/-- Executions from an empty heap; events with the latest first. -/
inductive Exec (sb : Nat → Box) : List Ev → Heap → Prop
  | nil : Exec sb [] (fun _ => none)
  | cons {evs : List Ev} {h h' : Heap} {e : Ev} (hx : Exec sb evs h) (hs : Step sb h e h') : Exec sb (e :: evs) h'

/-- Addresses returned by the allocations of an execution. -/
def newAddrs (evs : List Ev) : List Nat := evs.filterMap (fun | .new a => some a | _ => none)

end Laik.Sto
