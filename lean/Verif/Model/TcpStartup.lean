import Verif.Spec.TcpStartup

/-!
# Startup of the TCP2 backend

Model of the handshake by which the processes of a job find each other in the
TCP2 backend: the master (`startup_master`), all other processes
(`startup_non_master`), the handlers of the commands `register`, `id`, `newid`,
`getready`, `ok` and `phase`, and the creation of the first world.

Simplifications. A command is a value instead of a line of text; texts have at
most 50 characters (longer ones would be cut by `%50s`) and no blanks. Every
process is connected to the master before anything happens, and a connection
delivers all commands in order; what is in flight is kept in the queues `toP`
and `toM`. Events may come in any order, so that any number of processes may run
at any speed. Broken connections are not modelled, nor commands of the
application that follow the startup.
-/

namespace Laik.Su

/-- `PeerState` of src/backend-tcp2.c:209-234; the states used before the first
world exists. -/
inductive PS where
  | invalid | beforeReg | regAccepted | regFinishing
  | inStartup | inStartup2 | noConnect | ready | dead | inResize
deriving DecidableEq

/-- Commands of the startup: src/backend-tcp2.c:907 (`id`), 1770-1778
(`newid`), 1784 (`getready`), 1424 (`ok`), 1795 (`phase 0 0`), 1807-1808
(`register`). -/
inductive Msg where
  | register (w : Who)
  | id (lid : Nat) (w : Who)
  | newid (lid : Nat) (w : Who)
  | getready
  | ok
  | phase
deriving DecidableEq

/-- A step fails because an assertion fails (or `laik_panic` is called); `idle`
says that the step has nothing to do and does not happen. -/
inductive Bad where
  | idle
  | assert
deriving DecidableEq

/-- `MAX_PEERS`, src/backend-tcp2.c:182. -/
def maxPeers : Nat := 256

/-- Instance data of a process that is not the master: `InstData` and `Peer`,
src/backend-tcp2.c:238-330. `size` is `maxid + 1`; `table` holds what is known
of a peer (`location == 0` is `none`); `phase` says whether `phase` was set. -/
structure Proc where
  me : Who
  mystate : PS
  mylid : Option Nat
  size : Nat
  peers : Nat
  phase : Bool
  table : Nat → Option Who
  st : Nat → PS

/-- Instance data of the master. `reg` are the connections of LID 1, 2, …
(`peer[lid].fd`), so `maxid` is its length; `lidOf` is `fds[fd].lid`; `queued` is
`fds[fd].cmd != 0`; `stage` is where `startup_master` waits: in the loop of line
1762, in the one of line 1786, or it returned. -/
structure Master where
  me : Who
  mystate : PS
  reg : List Nat
  peers : Nat
  readyPeers : Nat
  table : Nat → Option Who
  st : Nat → PS
  lidOf : Nat → Option Nat
  queued : Nat → Bool
  stage : Nat

/-- All processes and what is on the way between them and the master. -/
structure Sys where
  m : Master
  proc : Nat → Proc
  toP : Nat → List Msg
  toM : Nat → List Msg

/-- Assignment to one element of an array. -/
def upd {α : Type} (f : Nat → α) (i : Nat) (a : α) : Nat → α :=
  fun j => if j = i then a else f j

/-- A process that knows nothing but itself: `laik_init_tcp2`,
src/backend-tcp2.c:1975-1981 and the initial values of 1691-1736. -/
def newProc (w : Who) : Proc where
  me := w
  mystate := .beforeReg
  mylid := none
  size := 0
  peers := 0
  phase := false
  table := fun _ => none
  st := fun i => if i = 0 then .ready else .invalid

/-- The master when it begins to wait: src/backend-tcp2.c:1957-1972, 1742-1761. -/
def newMaster (w : Who) : Master where
  me := tag 0 w
  mystate := .inStartup
  reg := []
  peers := 0
  readyPeers := 0
  table := fun i => if i = 0 then some (tag 0 w) else none
  st := fun i => if i = 0 then .inStartup else .invalid
  lidOf := fun _ => none
  queued := fun _ => false
  stage := 0

/-- The `register` command, src/backend-tcp2.c:1806-1809: location and host are
written with `%.30s`. -/
def registerMsg (w : Who) : Msg :=
  .register { w with loc := w.loc.take 30, host := w.host.take 30 }

/-- `P` processes besides the master, each having sent its registration. -/
def start (mw : Who) (who : Nat → Who) (P : Nat) : Sys where
  m := newMaster mw
  proc := fun p => newProc (who p)
  toP := fun _ => []
  toM := fun p => if p < P then [registerMsg (who p)] else []

/-- `send_cmd` of the master to a LID, src/backend-tcp2.c:631-660. -/
def send (reg : List Nat) (lid : Nat) (m : Msg) (q : Nat → List Msg) : Nat → List Msg :=
  match reg[lid - 1]? with
  | some p => upd q p (q p ++ [m])
  | none => q

/-- `got_register`, src/backend-tcp2.c:826-917. -/
def gotRegister (N p : Nat) (w : Who) (s : Sys) : Except Bad Sys :=
  if (s.m.lidOf p).isSome then .ok s
  else if s.m.mystate ≠ .inStartup then
    if s.m.queued p then .error .assert
    else .ok { s with m := { s.m with queued := upd s.m.queued p true } }
  else
    let lid := s.m.reg.length + 1
    if maxPeers ≤ lid then .error .assert
    else if (s.m.table lid).isSome then .error .assert
    else
      let w' := tag lid w
      let reg := s.m.reg ++ [p]
      .ok { s with
        m := { s.m with
          reg := reg
          lidOf := upd s.m.lidOf p (some lid)
          table := upd s.m.table lid (some w')
          st := upd s.m.st lid .regAccepted
          peers := s.m.peers + 1
          mystate := if s.m.peers + 1 + 1 = N then .inStartup2 else s.m.mystate }
        toP := send reg lid (.id lid w') s.toP }

/-- `got_ok`, src/backend-tcp2.c:1432-1467, without the part for a resize. -/
def gotOk (N p : Nat) (s : Sys) : Sys :=
  match s.m.lidOf p with
  | none => s
  | some lid =>
    if s.m.st lid = .regFinishing then
      { s with m := { s.m with
          st := upd s.m.st lid .ready
          readyPeers := s.m.readyPeers + 1
          mystate :=
            if s.m.mystate = .inStartup2 ∧ s.m.readyPeers + 1 + 1 = N then .ready
            else s.m.mystate } }
    else s

/-- The master reads a command of process `p`: `got_cmd`,
src/backend-tcp2.c:1473-1518; other commands are ignored by the master. -/
def masterStep (N p : Nat) (s : Sys) : Except Bad Sys :=
  match s.toM p with
  | [] => .error .idle
  | m :: ms =>
    let s := { s with toM := upd s.toM p ms }
    match m with
    | .register w => gotRegister N p w s
    | .ok => .ok (gotOk N p s)
    | _ => .ok s

/-- `send_cmd` if there is something to send, otherwise `continue`. -/
def sendSome (reg : List Nat) (lid : Nat) (o : Option Msg) (q : Nat → List Msg) :
    Nat → List Msg :=
  match o with
  | some m => send reg lid m q
  | none => q

/-- `send_cmd` to the LIDs of a list in their order. -/
def sendList (reg : List Nat) (f : Nat → Option Msg) (tos : List Nat)
    (q : Nat → List Msg) : Nat → List Msg :=
  tos.foldl (fun q t => sendSome reg t (f t) q) q

/-- What `sprintf` writes for a LID in line 1770; never used for an unknown one. -/
def known (t : Nat → Option Who) (lid : Nat) : Who := (t lid).getD ⟨[], [], 0, false⟩

/-- The broadcast of all LIDs, src/backend-tcp2.c:1768-1778. -/
def broadcast (m : Master) (q : Nat → List Msg) : Nat → List Msg :=
  (List.range (m.reg.length + 1)).foldl (fun q lid =>
    sendList m.reg
      (fun t => if lid = t then none else some (.newid lid (known m.table lid)))
      (List.range' 1 m.reg.length) q) q

/-- `startup_master` goes on, src/backend-tcp2.c:1762-1798, once its waiting loop
ends. -/
def mainStep (N : Nat) (s : Sys) : Except Bad Sys :=
  let m := s.m
  let lids := List.range' 1 m.reg.length
  if m.stage = 0 then
    if m.mystate = .inStartup then .error .idle
    else if m.peers + 1 ≠ N then .error .assert
    else if m.mystate ≠ .inStartup2 then .error .assert
    else if lids.any (fun i => m.st i ≠ .regAccepted) then .error .assert
    else .ok { s with
      m := { m with
        stage := 1
        st := fun i => if i ∈ lids then .regFinishing else m.st i }
      toP := sendList m.reg (fun _ => some .getready) lids (broadcast m s.toP) }
  else if m.stage = 1 then
    if m.mystate = .inStartup2 then .error .idle
    else if m.readyPeers + 1 ≠ N then .error .assert
    else if lids.any (fun i => m.st i ≠ .ready) then .error .assert
    else .ok { s with
      m := { m with stage := 2 }
      toP := sendList m.reg (fun _ => some .phase) lids s.toP }
  else .error .idle

/-- `got_id` for `id` and `newid`, src/backend-tcp2.c:1117-1205; a process in a
resize (`PS_InResize`) does not occur here. -/
def gotId (new : Bool) (lid : Nat) (w : Who) (c : Proc) : Except Bad Proc :=
  if maxPeers ≤ lid then .error .assert
  else
    let size := max c.size (lid + 1)
    match c.mylid with
    | none =>
      if w.host ≠ c.me.host ∨ w.port ≠ c.me.port ∨ w.bin ≠ c.me.bin then .error .assert
      else
        let me := { c.me with loc := w.loc }
        .ok { c with
          size := size
          mystate := .regAccepted
          mylid := some lid
          me := me
          table := upd c.table lid (some me)
          st := upd c.st lid .regAccepted }
    | some l =>
      if lid = l then .error .assert
      else if (c.table lid).isSome then .error .assert
      else if c.mystate ≠ .regAccepted then .error .assert
      else .ok { c with
        size := size
        table := upd c.table lid (some w)
        st := upd c.st lid (if new then .noConnect else .inResize)
        peers := c.peers + 1 }

/-- `got_getready`, src/backend-tcp2.c:1392-1430: new state and answer. -/
def gotGetready (c : Proc) : Proc × List Msg :=
  if c.mystate = .regAccepted then
    ({ c with
      mystate := .ready
      st := match c.mylid with
        | some l => upd c.st l .ready
        | none => c.st }, [.ok])
  else (c, [])

/-- A process that is not the master handles a command of the master, with what
it answers: `got_cmd`, src/backend-tcp2.c:1473-1518; `got_phase`, 1207-1228. -/
def recv (m : Msg) (c : Proc) : Except Bad (Proc × List Msg) :=
  match m with
  | .id lid w => (gotId false lid w c).map fun c => (c, [])
  | .newid lid w => (gotId true lid w c).map fun c => (c, [])
  | .getready => .ok (gotGetready c)
  | .phase => .ok ({ c with phase := true }, [])
  | .register _ => .ok (c, [])
  | .ok => .ok (c, [])

/-- Process `p` reads its next command. -/
def peerStep (p : Nat) (s : Sys) : Except Bad Sys :=
  match s.toP p with
  | [] => .error .idle
  | m :: ms =>
    match recv m (s.proc p) with
    | .error e => .error e
    | .ok (c, out) => .ok { s with
        proc := upd s.proc p c
        toP := upd s.toP p ms
        toM := upd s.toM p (s.toM p ++ out) }

/-- One event. -/
def step (N : Nat) (e : Ev) (s : Sys) : Except Bad Sys :=
  match e with
  | .master p => masterStep N p s
  | .main => mainStep N s
  | .peer p => peerStep p s

/-- Events one after the other. -/
def run (N : Nat) : List Ev → Sys → Except Bad Sys
  | [], s => .ok s
  | e :: es, s =>
    match step N e s with
    | .error b => .error b
    | .ok s => run N es s

/-- `startup_non_master` returns: both waiting loops end,
src/backend-tcp2.c:1812-1817. -/
def left (c : Proc) : Bool := c.mystate = .ready && c.phase

/-- State of a peer when the first world is made: src/backend-tcp2.c:1820-1826
and 1998. -/
def finalState (c : Proc) (i : Nat) : PS :=
  if c.mylid = some i then .noConnect
  else if c.st i = .invalid then .dead
  else c.st i

/-- The first world of a process, src/backend-tcp2.c:2008-2031: its size and the
own number in it. Only the case without old processes is taken over. -/
def firstWorld (c : Proc) : Except Bad (Nat × Nat) :=
  let sts := (List.range c.size).map (finalState c)
  if sts.any (fun a => a ≠ .dead ∧ a ≠ .noConnect ∧ a ≠ .inResize) then .error .assert
  else
    let added := sts.count .noConnect
    let old := sts.count .inResize
    if c.peers + 1 ≠ old + added then .error .assert
    else if old ≠ 0 then .error .assert
    else match c.mylid with
      | some l => .ok (c.peers + 1, l)
      | none => .error .assert

end Laik.Su
