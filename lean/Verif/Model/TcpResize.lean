import Verif.Spec.Resize
/-!
# Model of the resize of the world in the TCP backend

`tcp2_resize`, the commands exchanged for it, the group creation in a newcomer
(`laik_init_tcp2`) and `tcp2_finish_resize` of `src/backend-tcp2.c`, with the
callers in `src/core.c`.  A failed assert, panic, write beyond an allocation,
or endless waiting is `none`.
-/

namespace Laik.Rsz

/-- `PeerState`, src/backend-tcp2.c 210-235, as far as used in a resize. -/
inductive PS where
  | invalid
  | beforeReg
  | regAccepted
  | regFinishing
  | noConnect
  | ready
  | readyRemove
  | dead
  | error
  | inResize
  | inResize2
  | inResize3
  | inResizeRemove
  | inResizeRemove2
  | inResizeRemove3
  deriving DecidableEq, Repr

/-- Change of one entry. -/
def upd {α : Type} (f : Nat → α) (k : Nat) (v : α) : Nat → α := fun j => if j = k then v else f j

/-! ### Groups -/

/-- `Laik_Group`, allocated by `laik_create_group` (src/core.c 286-321): five
arrays of `maxsize` entries in one block of memory. -/
structure Grp where
  size : Nat
  maxsize : Nat
  myid : Int
  mem : Nat → Int

/-- `g->locationid[i]` -/
def Grp.loc (g : Grp) (i : Nat) : Int := g.mem i
/-- `g->fromParent[i]` -/
def Grp.fromP (g : Grp) (i : Nat) : Int := g.mem (g.maxsize + i)
/-- `g->toParent[i]` -/
def Grp.toP (g : Grp) (i : Nat) : Int := g.mem (2 * g.maxsize + i)

/-- The arrays as seen from outside; `k` is the size of the parent group. -/
def Grp.locs (g : Grp) : List Int := (List.range g.size).map g.loc
def Grp.toPs (g : Grp) : List Int := (List.range g.size).map g.toP
def Grp.fromPs (g : Grp) (k : Nat) : List Int := (List.range k).map g.fromP

/-- Write into the memory block of a group with `maxsize` `ms`. -/
def wr (ms k : Nat) (v : Int) (mem : Nat → Int) : Option (Nat → Int) :=
  if k < 5 * ms then some (upd mem k v) else none

/-- State of the loops over all LIDs creating a group: peer states, memory of
the new group, memory of the parent group (only written in a newcomer), and
the indexes in parent and new group. -/
structure Bld where
  st : Nat → PS
  mem : Nat → Int
  par : Nat → Int
  i1 : Nat
  i2 : Nat

/-- Cases of the `switch` in a non-master, src/backend-tcp2.c 2578-2606. -/
def clsPeer : PS → Option (Role × PS)
  | .dead => some (.gone, .dead)
  | .ready => some (.stay, .ready)
  | .noConnect => some (.fresh, .ready)
  | .inResizeRemove => some (.leave, .readyRemove)
  | .readyRemove => some (.leave, .readyRemove)
  | _ => none

/-- Cases in the master, src/backend-tcp2.c 2771-2799. -/
def clsMaster : PS → Option (Role × PS)
  | .dead => some (.gone, .dead)
  | .inResize => some (.stay, .ready)
  | .inResize3 => some (.stay, .ready)
  | .ready => some (.fresh, .ready)
  | .inResizeRemove3 => some (.leave, .readyRemove)
  | _ => none

/-- Cases in a newcomer, src/backend-tcp2.c 2039-2065. -/
def clsNew : PS → Option (Role × PS)
  | .dead => some (.gone, .dead)
  | .inResize => some (.stay, .ready)
  | .inResizeRemove => some (.leave, .readyRemove)
  | .noConnect => some (.fresh, .ready)
  | _ => none

/-- Old world known (`some`), or parent group to be filled (`none`). -/
def chkOld (w : Option Grp) (b : Bld) (lid : Nat) : Option Bld :=
  match w with
  | some w => if w.loc b.i1 = lid then some b else none
  | none => some { b with par := upd b.par b.i1 lid }

/-- Body of the loops, src/backend-tcp2.c 2577-2607, 2770-2800, 2038-2066,
which differ in the state tests (`cls`) and in checking against the old world
or filling the parent group. -/
def bldStep (cls : PS → Option (Role × PS)) (w : Option Grp) (ms : Nat) (b : Bld) (lid : Nat) :
    Option Bld :=
  match cls (b.st lid) with
  | none => none
  | some (.gone, _) => some b
  | some (.stay, s) => do
    let b ← chkOld w { b with st := upd b.st lid s } lid
    let m ← wr ms b.i2 lid b.mem
    let m ← wr ms (2 * ms + b.i2) b.i1 m
    let m ← wr ms (ms + b.i1) b.i2 m
    some { b with mem := m, i1 := b.i1 + 1, i2 := b.i2 + 1 }
  | some (.fresh, s) => do
    let m ← wr ms b.i2 lid b.mem
    let m ← wr ms (2 * ms + b.i2) (-1) m
    some { b with st := upd b.st lid s, mem := m, i2 := b.i2 + 1 }
  | some (.leave, s) => do
    let b ← chkOld w { b with st := upd b.st lid s } lid
    let m ← wr ms (ms + b.i1) (-1) b.mem
    some { b with mem := m, i1 := b.i1 + 1 }

/-- The loop over LIDs. -/
def build (cls : PS → Option (Role × PS)) (w : Option Grp) (ms : Nat) : Bld → List Nat → Option Bld
  | b, [] => some b
  | b, l :: ls => (bldStep cls w ms b l).bind fun b' => build cls w ms b' ls

/-! ### Processes -/

/-- `InstData`, src/backend-tcp2.c 280-315: `mylid` (`none`: -1), `mystate`,
`maxid + 1`, states of the peers, whether data of a peer (location) is known,
counters, `phase` and `epoch` received last. -/
structure Proc where
  mylid : Option Nat
  mystate : PS
  n : Nat
  st : Nat → PS
  known : Nat → Bool
  peers : Nat
  readyPeers : Int
  deadPeers : Int
  phase : Int
  epoch : Int

/-- A process with its LAIK instance (include/laik/core-internal.h): world,
parent of the world, epoch, number of groups created. -/
structure Node where
  p : Proc
  world : Grp
  parent : Option Grp
  iepoch : Int
  groups : Nat

/-- `MAX_GROUPS`, include/laik/definitions.h 21. -/
def maxGroups : Nat := 50
/-- `MAX_PEERS`, src/backend-tcp2.c 182. -/
def maxPeers : Nat := 256

/-- Commands sent by the master: `id`/`newid` (`new`), `backedout`,
`getready`, `phase`. -/
inductive Cmd where
  | id (lid : Nat) (new : Bool)
  | backedout (lid : Nat)
  | getready
  | phase (ph ep : Int)
  deriving DecidableEq, Repr

/-- Commands from the master handled in a non-master: `got_id`
(src/backend-tcp2.c 1117-1205), `got_backedout` (1255-1289), `got_getready`
(1392-1430), `got_phase` (1207-1228).  Simplification: text and the data of a
peer besides its state. -/
def recv (p : Proc) : Cmd → Option Proc
  | .id l new =>
    if ¬ l < maxPeers then none
    else match p.mylid with
    | none => some { p with n := max p.n (l + 1), mystate := .regAccepted, mylid := some l,
                            st := upd p.st l .regAccepted, known := upd p.known l true }
    | some me =>
      if l = me ∨ p.known l = true then none
      else if p.mystate = .regAccepted then
        some { p with n := max p.n (l + 1), peers := p.peers + 1, known := upd p.known l true,
                      st := upd p.st l (if new then .noConnect else .inResize) }
      else if p.mystate = .inResize ∧ new = true then
        some { p with n := max p.n (l + 1), peers := p.peers + 1, known := upd p.known l true,
                      st := upd p.st l .noConnect }
      else none
  | .backedout l =>
    if p.mystate = .regAccepted ∨ p.mystate = .inResize ∨ p.mystate = .inResizeRemove then
      if 0 < l ∧ l < p.n ∧ (p.st l = .inResize ∨ p.st l = .ready) then
        some { p with st := upd p.st l .inResizeRemove,
                      mystate := if p.mylid = some l then .inResizeRemove else p.mystate }
      else none
    else none
  | .getready =>
    if p.mystate = .regAccepted ∨ p.mystate = .inResize then
      some { p with mystate := .ready, st := upd p.st (p.mylid.getD 0) .ready }
    else if p.mystate = .inResizeRemove then
      some { p with mystate := .readyRemove, st := upd p.st (p.mylid.getD 0) .readyRemove }
    else some p
  | .phase ph ep => some { p with phase := ph, epoch := ep }

/-- Commands in order of arrival. -/
def recvAll (p : Proc) : List Cmd → Option Proc
  | [] => some p
  | c :: cs => (recv p c).bind fun p' => recvAll p' cs

/-- `laik_set_world`, src/core.c 346-358, with the group just created. -/
def setWorld (nd : Node) (g : Grp) : Node :=
  { nd with world := g, parent := some nd.world, iepoch := nd.iepoch + 1 }

/-- Group created for changed peer states, common end of `tcp2_resize`:
src/backend-tcp2.c 2572-2616 and 2765-2810, with `laik_set_world`.  `p` has
the peer states on entry. -/
def newWorld (cls : PS → Option (Role × PS)) (nd : Node) (p : Proc) (junk : Nat → Int) :
    Option Node :=
  if nd.groups < maxGroups then
    match build cls (some nd.world) p.n ⟨p.st, junk, fun _ => 0, 0, 0⟩ (List.range p.n) with
    | none => none
    | some b =>
      if nd.world.size = b.i1 then
        some (setWorld
          { nd with p := { p with st := b.st, mystate := b.st (p.mylid.getD 0) }
                    groups := nd.groups + 1 }
          { size := b.i2, maxsize := p.n, mem := b.mem,
            myid := b.mem (p.n + nd.world.myid.toNat) })
      else none
  else none

/-- States without change in a non-master. -/
def same (s : PS) : Bool := s = .dead ∨ s = .ready

/-- States with change in a non-master. -/
def diff (s : PS) : Bool := s = .noConnect ∨ s = .inResizeRemove ∨ s = .readyRemove

/-- `tcp2_resize` in a non-master after waiting, src/backend-tcp2.c
2549-2616. -/
def peerEnd (nd : Node) (me : Nat) (p : Proc) (junk : Nat → Int) : Option Node :=
  if (List.range p.n).all (fun l => same (p.st l) || diff (p.st l)) then
    if (List.range p.n).all (fun l => same (p.st l)) then
      if p.st me = .ready ∧ p.mystate = .ready then some { nd with p := p } else none
    else newWorld clsPeer nd p junk
  else none

/-- `tcp2_resize` in a non-master, src/backend-tcp2.c 2519-2617, called from
`laik_allow_world_resize` (src/core.c 535-581) with phase `ph`; `cmds` are
the commands arriving from the master while waiting.  `junk` is the content of
newly allocated memory. -/
def peerResize (nd : Node) (ph : Int) (cmds : List Cmd) (junk : Nat → Int) : Option Node :=
  match nd.parent, nd.p.mylid with
  | none, some me =>
    if nd.p.mystate = .readyRemove then some nd
    else if nd.p.mystate = .ready then
      match recvAll { nd.p with mystate := .inResize, st := upd nd.p.st me .inResize, phase := -1 }
        cmds with
      | none => none
      | some p => if p.phase = ph then peerEnd nd me p junk else none
    else none
  | _, _ => none

/-- Processing of requests in the master, src/backend-tcp2.c 2637-2664, with
`got_register` (826-917) assigning the next LID.  State: `maxid + 1` and peer
states. -/
def doReqs : Nat → (Nat → PS) → List Req → Option (Nat × (Nat → PS))
  | n, st, [] => some (n, st)
  | n, st, .join :: rs => if n < maxPeers then doReqs (n + 1) (upd st n .regAccepted) rs else none
  | n, st, .remove l :: rs =>
    if st l = .inResize then doReqs n (upd st l .inResizeRemove) rs else none

/-- `got_enterresize`, src/backend-tcp2.c 1230-1253, for commands from the
given LIDs. -/
def enterAll : (Nat → PS) → List Nat → Option (Nat → PS)
  | st, [] => some st
  | st, l :: ls => if l < maxPeers ∧ st l = .ready then enterAll (upd st l .inResize) ls else none

/-- Commands to process `dst` in a resize, src/backend-tcp2.c 2676-2727 and
2747-2753, and before this the response to the registration (905-908). -/
def masterCmds (n : Nat) (st : Nat → PS) (ph ep : Int) (dst : Nat) : List Cmd :=
  (if st dst = .regAccepted then
    .id dst false :: ((List.range n).filter fun l => st l ≠ .dead ∧ st l ≠ .regAccepted).map (.id · false)
   else []) ++
  ((List.range n).filter fun l => st l = .regAccepted ∧ l ≠ dst).map (.id · true) ++
  ((List.range n).filter fun l => st l = .inResizeRemove).map .backedout ++
  [.getready, .phase ph ep]

/-- State of a peer after `getready` was sent to it, src/backend-tcp2.c
2714-2727. -/
def readyState : PS → Option PS
  | .dead => some .dead
  | .regAccepted => some .regFinishing
  | .inResize => some .inResize2
  | .inResizeRemove => some .inResizeRemove2
  | _ => none

/-- `getready` to all non-masters. -/
def readyAll (n : Nat) (st : Nat → PS) : Option (Nat → PS) :=
  if (List.range n).all (fun l => l = 0 || (readyState (st l)).isSome) then
    some fun l => if l = 0 ∨ n ≤ l then st l else (readyState (st l)).getD (st l)
  else none

/-- `got_ok` in the master, src/backend-tcp2.c 1432-1468, for LIDs in order of
arrival.  State: `readyPeers` and peer states. -/
def okAll : Int → (Nat → PS) → List Nat → Int × (Nat → PS)
  | r, st, [] => (r, st)
  | r, st, l :: ls =>
    match st l with
    | .regFinishing => okAll (r + 1) (upd st l .ready) ls
    | .inResize2 => okAll r (upd st l .inResize3) ls
    | .inResizeRemove2 => okAll r (upd st l .inResizeRemove3) ls
    | _ => okAll r st ls

/-- Number of non-master LIDs in a state. -/
def cnt (n : Nat) (st : Nat → PS) (s : PS) : Nat :=
  ((List.range n).filter fun l => l ≠ 0 ∧ st l = s).length

/-- `tcp2_resize` in the master after all confirmed, src/backend-tcp2.c
2729-2810.  `rp` is `readyPeers`, `st` the peer states. -/
def masterEnd (nd : Node) (n : Nat) (added gone : Nat) (rp : Int) (st : Nat → PS)
    (junk : Nat → Int) : Option Node :=
  if (List.range n).all (fun l => l = 0 ∨ st l = .dead ∨ st l = .ready ∨ st l = .inResize3 ∨
      st l = .inResizeRemove3) then
    if (n : Int) - 1 - cnt n st .dead = rp ∧ (cnt n st .dead : Int) = nd.p.deadPeers then
      if added = 0 ∧ gone = 0 then
        some { nd with p := { nd.p with n := n, readyPeers := rp,
                                        st := fun l => if l = 0 ∨ n ≤ l ∨ st l = .dead then st l
                                          else .ready } }
      else newWorld clsMaster nd { nd.p with n := n, readyPeers := rp, st := st } junk
    else none
  else none

/-- `tcp2_resize` in the master, src/backend-tcp2.c 2519-2538 and 2619-2810,
called from `laik_allow_world_resize`.  `o1` and `o2` are the LIDs in the
order in which `enterresize` and `ok` arrive.  Result: new state, and the
commands to the others. -/
def masterResize (nd : Node) (ph : Int) (reqs : List Req) (o1 o2 : List Nat) (junk : Nat → Int) :
    Option (Node × (Nat → List Cmd)) :=
  match nd.parent with
  | some _ => none
  | none =>
    if nd.p.mystate = .ready then
      match enterAll (upd nd.p.st 0 .inResize) o1 with
      | none => none
      | some st =>
        if (List.range nd.p.n).all (fun l => l = 0 ∨ st l = .dead ∨ st l = .inResize ∨ st l = .error)
        then
          match doReqs nd.p.n st reqs with
          | none => none
          | some (n, st) =>
            match readyAll n st with
            | none => none
            | some st2 =>
              let added := cnt n st .regAccepted
              let gone := cnt n st .inResizeRemove
              let q := okAll nd.p.readyPeers st2 o2
              match masterEnd nd n added gone q.1 q.2 junk with
              | none => none
              | some nd' => some (nd', masterCmds n st ph
                  (if 0 < added ∨ 0 < gone then nd.iepoch + 1 else nd.iepoch))
        else none
    else none

/-- `tcp2_finish_resize`, src/backend-tcp2.c 2498-2515. -/
def finishP (p : Proc) : Proc :=
  let marked := ((List.range p.n).filter fun l => l ≠ 0 ∧ p.st l = .readyRemove).length
  { p with st := fun l => if l ≠ 0 ∧ l < p.n ∧ p.st l = .readyRemove then .dead else p.st l
           deadPeers := p.deadPeers + marked, readyPeers := p.readyPeers - marked }

/-- `laik_finish_world_resize`, src/core.c 583-594. -/
def finish (nd : Node) : Node :=
  match nd.parent with
  | none => nd
  | some _ => { nd with p := finishP nd.p, parent := none }

/-- State of a process before registration, src/backend-tcp2.c 1690-1737 and
1974-1981. -/
def freshProc : Proc :=
  { mylid := none, mystate := .beforeReg, n := 0, st := upd (fun _ => .invalid) 0 .ready,
    known := fun _ => false, peers := 0, readyPeers := 0, deadPeers := 0, phase := -1, epoch := -1 }

/-- Creation of the world in a newcomer, src/backend-tcp2.c 2005-2076, with
peer states `st` and `dead` LIDs without information. -/
def newcomerEnd (p : Proc) (me dead : Nat) (st : Nat → PS) (junk junk2 : Nat → Int) : Option Node :=
  let added := ((List.range p.n).filter fun l => st l = .noConnect).length
  let gone := ((List.range p.n).filter fun l => st l = .inResizeRemove).length
  let old := ((List.range p.n).filter fun l => st l = .inResize ∨ st l = .inResizeRemove).length
  let ws := p.peers + 1 - gone
  if (List.range p.n).all (fun l => st l = .dead ∨ st l = .noConnect ∨
      st l = .inResize ∨ st l = .inResizeRemove) ∧ p.peers + 1 = old + added then
    if old = 0 then
      some { p := { p with st := fun l => if l < ws then .ready else st l, deadPeers := dead }
             world := { size := ws, maxsize := ws, myid := me,
                        mem := fun k => if k < ws then k else junk k }
             parent := none, iepoch := p.epoch, groups := 1 }
    else
      -- `world->myid` is the number of members seen before the own LID
      match build clsNew none ws ⟨st, junk, junk2, 0, 0⟩ (List.range p.n),
            build clsNew none ws ⟨st, junk, junk2, 0, 0⟩ (List.range me) with
      | some b, some b0 =>
        if b.i1 = old ∧ b.i2 = ws then
          some { p := { p with st := b.st, deadPeers := dead }
                 world := { size := ws, maxsize := ws, myid := b0.i2, mem := b.mem }
                 parent := some { size := old, maxsize := old, myid := -1, mem := b.par }
                 iepoch := p.epoch, groups := 2 }
        else none
      | _, _ => none
  else none

/-- A newcomer: `startup_non_master` (src/backend-tcp2.c 1803-1829) and
`laik_init_tcp2` (2005-2076), with the commands arriving from the master. -/
def newcomer (cmds : List Cmd) (junk junk2 : Nat → Int) : Option Node :=
  match recvAll freshProc cmds with
  | none => none
  | some p =>
    if p.mystate = .ready ∧ p.phase ≠ -1 then
      newcomerEnd p (p.mylid.getD 0) ((List.range p.n).filter fun l => p.st l = .invalid).length
        (upd (fun l => if l < p.n ∧ p.st l = .invalid then .dead else p.st l) (p.mylid.getD 0)
          .noConnect) junk junk2
    else none

/-! ### All processes together -/

/-- The processes by LID; `live`: exists. -/
structure Sys where
  n : Nat
  live : Nat → Bool
  node : Nat → Node

/-- One resize: phase given, requests at the master, orders of arrival,
contents of allocated memory by process. -/
structure Rz where
  ph : Int
  reqs : List Req
  o1 : List Nat
  o2 : List Nat
  junk : Nat → Nat → Int
  junk2 : Nat → Nat → Int

/-- Process `t` in a resize, with the result of the master. -/
def sysNode (s : Sys) (r : Rz) (nd0 : Node) (cmds : Nat → List Cmd) (t : Nat) : Option Node :=
  if t = 0 then some nd0
  else if t < s.n then peerResize (s.node t) r.ph (cmds t) (r.junk t)
  else newcomer (cmds t) (r.junk t) (r.junk2 t)

/-- All processes call `laik_allow_world_resize`, new ones start. -/
def sysResize (s : Sys) (r : Rz) : Option Sys :=
  match masterResize (s.node 0) r.ph r.reqs r.o1 r.o2 (r.junk 0) with
  | none => none
  | some (nd0, cmds) =>
    if (List.range nd0.p.n).all (fun t => (t < s.n && !s.live t) || (sysNode s r nd0 cmds t).isSome) then
      some { n := nd0.p.n
             live := fun t => if t < s.n then s.live t else t < nd0.p.n
             node := fun t => (sysNode s r nd0 cmds t).getD nd0 }
    else none

/-- All processes call `laik_finish_world_resize`; removed ones end. -/
def sysFinish (s : Sys) : Sys :=
  { n := s.n, live := fun t => s.live t && (s.node t).p.mystate ≠ .readyRemove,
    node := fun t => finish (s.node t) }

/-- A series of resizes. -/
def sysRun (s : Sys) : List Rz → Option Sys
  | [] => some s
  | r :: rs => (sysResize s r).bind fun s' => sysRun (sysFinish s') rs

/-- `startup_master` (src/backend-tcp2.c 1742-1800) and the creation of the
world in `laik_init_tcp2`, for `ws` processes: state of the master.
Simplification: the registrations themselves, which give LIDs 1, 2, … -/
def startMaster (ws : Nat) (junk : Nat → Int) : Option Node :=
  if 0 < ws ∧ ws ≤ maxPeers then
    some { p := { mylid := some 0, mystate := .ready, n := ws,
                  st := fun l => if l < ws then .ready else .invalid, known := fun l => l < ws,
                  peers := ws - 1, readyPeers := (ws : Int) - 1, deadPeers := 0,
                  phase := 0, epoch := 0 }
           world := { size := ws, maxsize := ws, myid := 0,
                      mem := fun k => if k < ws then k else junk k }
           parent := none, iepoch := 0, groups := 1 }
  else none

/-- Commands to process `dst` at startup, src/backend-tcp2.c 1766-1797, with
the response to the registration. -/
def startCmds (ws dst : Nat) : List Cmd :=
  .id dst false :: ((List.range ws).filter fun l => l ≠ dst).map (.id · true) ++ [.getready, .phase 0 0]

/-- Startup of `ws` processes. -/
def sysStart (ws : Nat) (junk junk2 : Nat → Nat → Int) : Option Sys :=
  match startMaster ws (junk 0) with
  | none => none
  | some nd0 =>
    if (List.range ws).all (fun t => t = 0 || (newcomer (startCmds ws t) (junk t) (junk2 t)).isSome) then
      some { n := ws, live := fun t => t < ws
             node := fun t => if t = 0 then nd0 else (newcomer (startCmds ws t) (junk t) (junk2 t)).getD nd0 }
    else none

end Laik.Rsz
