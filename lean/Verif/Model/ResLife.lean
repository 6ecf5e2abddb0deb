import Verif.Spec.ResLife
/-!
# Mapping lists and reservations of a container as objects in memory

One container and one process, which is in the group of all partitionings and has
indexes in each.  Simplified: contents of a container are one value; objects have numbers
not used before (memory may be given again by `malloc`, then comparisons of pointers can
succeed by chance); `laik_reservation_alloc` does not fail for tags or groups (C42);
memory never runs out; partitionings, transitions and sequences are not freed; tags of
partitionings agree (C68).
-/

namespace Laik.Rl

/-- Ways a call ends without a result: failed `assert`, use of memory not in use,
`laik_panic`. -/
inductive Fault
  | assert
  | ub
  | panic
  deriving DecidableEq

/-- `Laik_MappingList` (include/laik/data-internal.h 153-158) with its mappings: not freed,
`res`, mappings have memory, list of the mappings with the memory used
(`baseMapping`; the list itself without reservation). -/
structure LObj where
  live : Bool
  res : Option Nat
  has : Bool
  base : Nat

/-- `Laik_Reservation` (include/laik/data-internal.h 76-92): not freed, `entry`, `mList`. -/
structure RObj where
  live : Bool := true
  entries : List (Nat × Option Nat) := []
  base : Option Nat := none

/-- `Laik_TransitionContext` of a sequence: transition with flow, `prepFromList`,
`prepToList`. -/
structure SObj where
  F : Option Nat
  p : Nat
  prepFrom : Option Nat
  prepTo : Option Nat
  keep : Bool

/-- Objects, and `activePartitioning`, `activeMappings`, `activeReservation` of the
container; `mem`: contents of memory of the mappings in a list. -/
structure St (V : Type) where
  lists : List LObj := []
  ress : List RObj := []
  seqs : List SObj := []
  part : Option Nat := none
  act : Option Nat := none
  use : Option Nat := none
  mem : Nat → Option V := fun _ => none

section
variable {V : Type}

def upd (m : Nat → Option V) (a : Nat) (v : Option V) : Nat → Option V := fun b => if b = a then v else m b

/-- Access to a reservation. -/
def getRes (s : St V) (r : Nat) : Except Fault RObj :=
  match s.ress[r]? with
  | none => .error .ub
  | some o => if o.live then .ok o else .error .ub

/-- Access to a mapping list. -/
def getList (s : St V) (l : Nat) : Except Fault LObj :=
  match s.lists[l]? with
  | none => .error .ub
  | some o => if o.live then .ok o else .error .ub

/-- Search for a partitioning with mapping list, src/data.c 347-348, 965-966. -/
def findEntry (p : Nat) : List (Nat × Option Nat) → Option Nat
  | [] => none
  | (q, some l) :: es => if q = p then some l else findEntry p es
  | (_, none) :: es => findEntry p es

/-- `laik_reservation_getMList`, src/data.c 962-973 (the same in 345-356). -/
def getMList (s : St V) (r p : Nat) : Except Fault (Option Nat) :=
  match getRes s r with
  | .error e => .error e
  | .ok o => match findEntry p o.entries with
    | none => .ok none
    | some l => match getList s l with
      | .error e => .error e
      | .ok m => if m.res = some r then .ok (some l) else .error .assert

/-- `prepareMaps`, src/data.c 336-397: list in the active reservation, or a new list
without memory. -/
def prepareMaps (s : St V) (p : Nat) : Except Fault (St V × Nat) :=
  let new := ({ s with lists := s.lists ++ [⟨true, none, false, s.lists.length⟩] }, s.lists.length)
  match s.use with
  | none => .ok new
  | some r => match getMList s r p with
    | .error e => .error e
    | .ok none => .ok new
    | .ok (some l) => .ok (s, l)

/-- `doTransition`, src/data.c 779-872, with transition: `checkMapReuse` (637-692) reads
the old list; `allocateMappings` (744-758) gives memory to new mappings; `copyMaps`
(548-601) copies if contents are kept, unless both lists are of the same reservation, and
not without old memory (574); old lists are freed if not of a reservation (867-871). -/
def doTransition (s : St V) (fr : Option Nat) (l : Nat) (keep : Bool) : Except Fault (St V) :=
  match getList s l with
  | .error e => .error e
  | .ok o =>
    let lists := s.lists.set l { o with has := true }
    match fr with
    | none => .ok { s with lists := lists }
    | some f => match getList s f with
      | .error e => .error e
      | .ok of =>
        let mem := if keep ∧ ¬ (of.res ≠ none ∧ of.res = o.res) ∧ of.has then upd s.mem o.base (s.mem of.base) else s.mem
        .ok { s with mem := mem, lists := if of.res = none then lists.set f { of with live := false } else lists }

/-- `laik_reservation_alloc`, src/data.c 997-1186: nothing if empty; else `mList` and a
list for each entry are made (2) and have memory after (4) and (5).  Lists made before
are neither used again nor freed. -/
def resAlloc (s : St V) (r : Nat) : Except Fault (St V) :=
  match getRes s r with
  | .error e => .error e
  | .ok o =>
    if o.entries = [] then .ok s
    else
      let n := s.lists.length
      .ok { s with
        lists := s.lists ++ ⟨true, none, true, n⟩ :: List.replicate o.entries.length ⟨true, some r, true, n⟩
        ress := s.ress.set r { o with entries := o.entries.mapIdx (fun i e => (e.1, some (n + 1 + i))), base := some n } }

/-- Loop of `laik_reservation_free`, src/data.c 940-944 (entries are not read again). -/
def freeEntries (ls : List LObj) : List (Nat × Option Nat) → Except Fault (List LObj)
  | [] => .ok ls
  | (_, none) :: _ => .error .assert
  | (_, some l) :: es => match ls[l]? with
    | none => .error .ub
    | some o => if o.live then freeEntries (ls.set l { o with live := false }) es else .error .ub

/-- `laik_reservation_free`, src/data.c 938-959 (memory itself: see C42). -/
def resFree (s : St V) (r : Nat) : Except Fault (St V) :=
  match getRes s r with
  | .error e => .error e
  | .ok o => match freeEntries s.lists o.entries with
    | .error e => .error e
    | .ok ls =>
      let done ls := { s with lists := ls, ress := s.ress.set r { o with live := false } }
      match o.base with
      | none => .ok (done ls)
      | some b => match ls[b]? with
        | none => .error .ub
        | some x => if x.live then .ok (done (ls.set b { x with live := false })) else .error .ub

/-- Switch to partitioning `p` with the lists found: `laik_switchto_partitioning`,
src/data.c 1294-1334. -/
def switchTo (s : St V) (p : Nat) (keep : Bool) : Except Fault (St V) :=
  match prepareMaps s p with
  | .error e => .error e
  | .ok (s', l) => match doTransition s' s.act l keep with
    | .error e => .error e
    | .ok s'' => .ok { s'' with part := some p, act := some l }

/-- `prepFromList`/`prepToList` for `laik_calc_actions`, src/data.c 1219-1224. -/
def optList (s : St V) (r p : Option Nat) : Except Fault (Option Nat) :=
  match r, p with
  | none, _ => .ok none
  | some r, none => (getRes s r).map fun _ => none
  | some r, some p => getMList s r p

/-- `laik_exec_actions`, src/data.c 1252-1290. -/
def execSeq (s : St V) (q : SObj) : Except Fault (St V) :=
  if s.part ≠ q.F then .error .panic
  else match prepareMaps s q.p with
    | .error e => .error e
    | .ok (s', l) =>
      if q.prepFrom ≠ none ∧ q.prepFrom ≠ s.act then .error .panic
      else if q.prepTo ≠ none ∧ q.prepTo ≠ some l then .error .panic
      else match doTransition s' s.act l q.keep with
        | .error e => .error e
        | .ok s'' => .ok { s'' with part := some q.p, act := some l }

/-- One call.  `new`: `laik_reservation_new`, src/data.c 889-911; `add`:
`laik_reservation_add`, 914-935; `use`: `laik_data_use_reservation`, 875-879, which reads
`r->data`; `initial`: `laik_set_initial_partitioning`, 1374-1384; `trans`:
`laik_exec_transition`, 1189-1209; `calc`: `laik_calc_actions`, 1211-1249, which keeps
lists only if the backend prepares sequences (`pr`); `write`: address from `laik_get_map`,
1447-1459, used by the application. -/
def step (pr : Bool) (s : St V) : Call V → Except Fault (St V)
  | .new => .ok { s with ress := s.ress ++ [{}] }
  | .add r p => match getRes s r with
    | .error e => .error e
    | .ok o => .ok { s with ress := s.ress.set r { o with entries := o.entries ++ [(p, none)] } }
  | .alloc r => resAlloc s r
  | .free r => resFree s r
  | .use none => .error .ub
  | .use (some r) => match getRes s r with
    | .error e => .error e
    | .ok _ => .ok { s with use := some r }
  | .initial p =>
    if s.part ≠ none ∨ s.act ≠ none then .error .assert
    else match prepareMaps s p with
      | .error e => .error e
      | .ok (s', l) => .ok { s' with part := some p, act := some l }
  | .switch p keep => switchTo s p keep
  | .trans F p keep => if s.part ≠ F then .error .panic else switchTo s p keep
  | .calc F p fr tr keep => match optList s fr F, optList s tr (some p) with
    | .error e, _ => .error e
    | .ok _, .error e => .error e
    | .ok a, .ok b => .ok { s with seqs := s.seqs ++ [⟨F, p, if pr then a else none, if pr then b else none, keep⟩] }
  | .exec k => match s.seqs[k]? with
    | none => .error .ub
    | some q => execSeq s q
  | .write v => match s.act with
    | none => .error .assert
    | some l => match getList s l with
      | .error e => .error e
      | .ok o => if o.has then .ok { s with mem := upd s.mem o.base (some v) } else .error .assert

/-- Calls in a history, newest first. -/
def run (pr : Bool) : Hist V → Except Fault (St V)
  | [] => .ok {}
  | c :: h => match run pr h with
    | .error e => .error e
    | .ok s => step pr s c

/-- Contents which the application finds. -/
def St.value (s : St V) : Option V := s.act.bind fun l => s.lists[l]?.bind fun o => s.mem o.base

/-- Lists not freed which are neither active nor in a reservation not freed. -/
def St.Lost (s : St V) (l : Nat) : Prop :=
  (∃ o, s.lists[l]? = some o ∧ o.live = true) ∧ s.act ≠ some l ∧
    ∀ (r : Nat) (o : RObj), s.ress[r]? = some o → o.live = true → o.base ≠ some l ∧ ∀ e ∈ o.entries, e.2 ≠ some l

end

end Laik.Rl
