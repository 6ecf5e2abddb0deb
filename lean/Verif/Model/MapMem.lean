import Verif.Model.MemStat
/-!
# Model of memory ownership when switching partitionings (`src/data.c`)

Which allocation a mapping uses and which mapping frees it; contents and
addresses within an allocation are modelled in `Model/Reuse`.
-/

namespace Laik.Mem

/-- Ways a call ends without a result. -/
inductive Fault where
  /-- a failed `assert` -/
  | assert
  /-- undefined behaviour: NULL dereference, free of memory not allocated -/
  | ub
  deriving DecidableEq, Repr

/-- Start of an allocation: from the allocator (numbered), or memory provided
by the user (`laik_data_provide_memory`, src/data.c 1440-1444). -/
inductive Addr where
  | heap (id : Nat)
  | user
  deriving DecidableEq, Repr

/-- Parts of `struct _Laik_Mapping` on ownership.  `size`: bytes required
(`count * elemsize`); `start`: `none` is NULL (`base` is set together with
`start`, src/data.c 488-489, 617-629); `own`: `allocator` is set. -/
structure MMap where
  size : Nat
  start : Option Addr := none
  own : Bool := true
  cap : Nat := 0
  reused : Bool := false
  deriving DecidableEq, Repr

/-- Memory of the process as seen by one container: allocations in use with
their sizes, and statistics. -/
structure Heap where
  live : List (Nat × Nat) := []
  next : Nat := 0
  stat : SwStat := {}
  deriving DecidableEq, Repr

/-- `freeMap`, src/data.c 402-435. -/
def freeMap (h : Heap) (m : MMap) : Except Fault Heap :=
  match m.start with
  | none => .ok h
  | some a =>
    if m.reused then .ok h
    else if m.own then
      match a with
      | .user => .error .ub
      | .heap id =>
        if h.live.any (·.1 == id) then
          .ok { h with live := h.live.eraseP (·.1 == id)
                       stat := ssFree h.stat (BitVec.ofNat 64 m.cap) }
        else .error .ub
    else .ok h

/-- `freeMappingList` for a list which is not part of a reservation,
src/data.c 440-460. -/
def freeMaps (h : Heap) : List MMap → Except Fault Heap
  | [] => .ok h
  | m :: ms => match freeMap h m with
    | .ok h' => freeMaps h' ms
    | .error e => .error e

/-- `laik_map_set_allocation` for user memory, src/data.c 468-495 called from
389: the memory must be large enough. -/
def provide (m : MMap) (size : Nat) : Except Fault MMap :=
  if m.size ≤ size then .ok { m with start := some .user, cap := size, own := false }
  else .error .assert

/-- `prepareMaps` without reservation, src/data.c 336-397, for maps requiring
the given numbers of bytes; user memory is used for the first map. -/
def prepare (sizes : List Nat) (user : Option Nat) : Except Fault (List MMap) :=
  match sizes.map (fun s => ({ size := s } : MMap)), user with
  | m :: ms, some u => match provide m u with
    | .ok m' => .ok (m' :: ms)
    | .error e => .error e
  | ms, _ => .ok ms

/-- Search loop of `checkMapReuse`, src/data.c 656-667: first old mapping from
position `s` on with memory, not re-used yet, and accepted by the layout
(`reuse`).  -/
def findOld (reuse : Nat → Bool) : Nat → List MMap → Option Nat
  | _, [] => none
  | s, m :: ms =>
    if m.start = none then findOld reuse (s + 1) ms
    else if m.reused then findOld reuse (s + 1) ms
    else if reuse s then some s
    else findOld reuse (s + 1) ms

/-- `initEmbeddedMapping`, src/data.c 609-630. -/
def embed (m old : MMap) : MMap :=
  { m with start := old.start, cap := old.cap, own := old.own }

/-- Loop of `checkMapReuse`, src/data.c 651-691, from new mapping `i` on:
(new mappings, old mappings). -/
def reuseMaps (reuse : Nat → Nat → Bool) : Nat → List MMap → List MMap → List MMap × List MMap
  | _, [], fr => ([], fr)
  | i, m :: ms, fr =>
    match findOld (reuse i) 0 fr with
    | none => let r := reuseMaps reuse (i + 1) ms fr; (m :: r.1, r.2)
    | some s =>
      match fr[s]? with
      | none => let r := reuseMaps reuse (i + 1) ms fr; (m :: r.1, r.2)
      | some old =>
        let r := reuseMaps reuse (i + 1) ms (fr.set s { old with own := false, reused := true })
        (embed m old :: r.1, r.2)

/-- `checkMapReuse`, src/data.c 637-692, without reservations: nothing to do
without old mappings. -/
def checkReuse (reuse : Nat → Nat → Bool) (ms : List MMap) :
    Option (List MMap) → List MMap × List MMap
  | none => (ms, [])
  | some f => reuseMaps reuse 0 ms f

/-- `laik_allocateMap`, src/data.c 499-531 (memory never runs out). -/
def allocateMap (h : Heap) (m : MMap) : Heap × MMap :=
  if m.start.isSome then (h, m)
  else if m.size = 0 then (h, m)
  else ({ live := h.live ++ [(h.next, m.size)], next := h.next + 1
          stat := ssMalloc h.stat (BitVec.ofNat 64 m.size) },
        { m with start := some (.heap h.next), cap := m.size })

/-- `allocateMappings`, src/data.c 744-758. -/
def allocateMaps (h : Heap) : List MMap → Except Fault (Heap × List MMap)
  | [] => .ok (h, [])
  | m :: ms =>
    if m.start.isSome then
      match allocateMaps h ms with
      | .ok (h', ms') => .ok (h', m :: ms')
      | .error e => .error e
    else if ¬ m.own then .error .assert
    else
      match allocateMaps (allocateMap h m).1 ms with
      | .ok (h', ms') => .ok (h', (allocateMap h m).2 :: ms')
      | .error e => .error e

/-- Memory part of `doTransition`, src/data.c 779-872, without reservations:
`t` whether there is a transition, `none` for lists is NULL.  Communication,
copying and initialization in between do not touch ownership. -/
def doTransition (h : Heap) (t : Bool) (reuse : Nat → Nat → Bool)
    (fr to' : Option (List MMap)) : Except Fault (Heap × Option (List MMap)) :=
  let h := { h with stat := { h.stat with switches := h.stat.switches + 1 } }
  if t = false then
    match fr with
    | none => .error .ub          -- `fromList->res`, line 792
    | some f => match freeMaps h f with
      | .ok h' => .ok (h', to')
      | .error e => .error e
  else
    match to' with
    | none => .error .ub          -- `toList->count`, line 746
    | some ms =>
      let r := checkReuse reuse ms fr
      match allocateMaps h r.1 with
      | .error e => .error e
      | .ok (h', ms') =>
        match freeMaps h' r.2 with
        | .ok h'' => .ok (h'', some ms')
        | .error e => .error e

/-- Partitioning to switch to: whether this process is in its group, sizes
required by its maps, what the layouts say on re-use of old maps, and memory
provided by the user. -/
structure Target where
  inGroup : Bool
  sizes : List Nat
  reuse : Nat → Nat → Bool
  user : Option Nat

/-- A container: memory, active partitioning (`some b`: with this process in
its group or not) and active mappings. -/
structure Cont where
  heap : Heap := {}
  part : Option Bool := none
  maps : Option (List MMap) := none
  deriving DecidableEq, Repr

/-- `laik_switchto_partitioning`, src/data.c 1294-1334, without reservations.
If groups differ, both partitionings are migrated to the union of the groups
first, so this process takes part if it is in one of them (for equal groups
both memberships are equal).  A transition is calculated (src/space.c
1350-1379) if the process takes part. -/
def switchTo (c : Cont) (target : Option Target) : Except Fault Cont :=
  match c.part, target with
  | none, none => .ok c
  | p, none =>
    match doTransition c.heap (p == some true) (fun _ _ => false) c.maps none with
    | .ok (h, ms) => .ok ⟨h, none, ms⟩
    | .error e => .error e
  | p, some g =>
    let takesPart := g.inGroup || (p == some true)
    let ms : Except Fault (Option (List MMap)) :=
      if takesPart then (prepare g.sizes g.user).map some else .ok none
    match ms with
    | .error e => .error e
    | .ok ms =>
      match doTransition c.heap takesPart g.reuse c.maps ms with
      | .ok (h, ms') => .ok ⟨h, some g.inGroup, ms'⟩
      | .error e => .error e

/-- `laik_set_initial_partitioning`, src/data.c 1374-1384: mappings without
memory. -/
def setInitial (c : Cont) (g : Target) : Except Fault Cont :=
  if c.part.isSome || c.maps.isSome then .error .assert
  else if g.inGroup then
    match prepare g.sizes g.user with
    | .ok ms => .ok ⟨c.heap, some true, some ms⟩
    | .error e => .error e
  else .ok ⟨c.heap, some false, none⟩

/-- Calls of the user. -/
inductive SwEv where
  | initial (g : Target)
  | switch (g : Option Target)

/-- One call. -/
def swStep (c : Cont) : SwEv → Except Fault Cont
  | .initial g => setInitial c g
  | .switch g => switchTo c g

/-- History of calls. -/
def swRun (c : Cont) : List SwEv → Except Fault Cont
  | [] => .ok c
  | g :: gs => match swStep c g with
    | .ok c' => swRun c' gs
    | .error e => .error e

end Laik.Mem
