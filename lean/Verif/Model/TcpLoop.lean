import Verif.Spec.TcpLoop

/-!
# Event loop of the TCP2 backend

`src/backend-tcp2.c`: `add_rfd`, `rm_rfd`, `run_loop`, `check_loop`, and the callbacks for
the listening socket and for connections, in one process.  Bytes of a receive buffer are
given as complete lines and a line not yet complete (bytes: C38).  Clients may send
anything.  Results which are not possible (an open descriptor given again, input on
descriptors not asked for) are no executions: `Fault.impossible`.
-/

namespace Laik.Lp

/-- `MAX_FDS`, src/backend-tcp2.c 183. -/
def maxFds : Nat := 256

/-- `MAX_PEERS`, src/backend-tcp2.c 182. -/
def maxPeers : Nat := 256

/-- Callbacks: `got_connect`, `got_bytes`. -/
inductive Cb
  | connect
  | bytes
  deriving DecidableEq, Repr

/-- `FDState`, src/backend-tcp2.c 267-278.  `lid`: `none` is -1.  `cmd`: a command is queued;
`buf`: `rbuf` is allocated; `part`: line in the buffer which is not complete.  `state` and
`outstanding_bin` are left out. -/
structure Fd where
  cb : Option Cb
  lid : Option Nat
  cmd : Bool
  buf : Bool
  part : Option Cmd
  deriving DecidableEq

/-- What may go wrong.  `nullCb`: assert in the loops (491, 511); `addTwice`: assert in
`add_rfd` (456); `tooMany`: assert on `MAX_FDS` (455); `rmTwice`: assert in `rm_rfd` (471);
`empty`: `rm_rfd` looks at negative descriptors (475); `freed`: use of the freed receive
buffer in `process_rbuf`; `wrongPeer`: assert in `got_bytes` (1631); `badId`: assert in
`got_myid` (944-945); `queued`: assert that no command is queued (846, 967); `tooManyPeers`:
assert on `MAX_PEERS` (885); `impossible`: not an execution. -/
inductive Fault
  | nullCb
  | addTwice
  | tooMany
  | rmTwice
  | empty
  | freed
  | wrongPeer
  | badId
  | queued
  | tooManyPeers
  | impossible
  deriving DecidableEq

/-- Part of `InstData`, src/backend-tcp2.c 280-309: `fds`, `rset`, `maxfds`, `peer[].fd`,
`maxid`, `mylid`.  `isOpen`: descriptors which are open.  `starting`: the state is
`PS_InStartup` or `PS_InResize1`; `inst`: `instance` is set.  `calls`: descriptors for which
the callback was called; `log`: commands given to `got_cmd`, with descriptor. -/
structure St where
  fds : Nat → Fd
  rset : Nat → Bool
  maxfds : Nat
  peerFd : Nat → Option Nat
  maxid : Nat
  mylid : Nat
  starting : Bool
  inst : Bool
  isOpen : Nat → Bool
  calls : List Nat
  log : List (Nat × Cmd)

/-- Go on if nothing went wrong. -/
def next (x : Except Fault St) (f : St → Except Fault St) : Except Fault St :=
  match x with
  | .ok s => f s
  | .error e => .error e

/-- `add_rfd`, src/backend-tcp2.c 453-466. -/
def addRfd (s : St) (fd : Nat) (cb : Cb) : Except Fault St :=
  if maxFds ≤ fd then .error .tooMany
  else if (s.fds fd).cb ≠ none then .error .addTwice
  else .ok { s with
    fds := upd s.fds fd ⟨some cb, none, false, true, none⟩
    rset := upd s.rset fd true
    maxfds := if s.maxfds < fd then fd else s.maxfds }

/-- Loop in `rm_rfd`, src/backend-tcp2.c 475. -/
def down (r : Nat → Bool) : Nat → Option Nat
  | 0 => if r 0 then some 0 else none
  | n + 1 => if r (n + 1) then some (n + 1) else down r n

/-- `rm_rfd`, src/backend-tcp2.c 468-480.  `lid` and `cmd` stay. -/
def rmRfd (s : St) (fd : Nat) : Except Fault St :=
  if maxFds ≤ fd then .error .tooMany
  else if (s.fds fd).cb = none then .error .rmTwice
  else
    let r := upd s.rset fd false
    match (if fd = s.maxfds then down r s.maxfds else some s.maxfds) with
    | none => .error .empty
    | some m => .ok { s with
        rset := r
        maxfds := m
        fds := upd s.fds fd { s.fds fd with cb := none, buf := false, part := none } }

/-- `ensure_conn`, src/backend-tcp2.c 560-622, with `f` the descriptor given by `socket`.
Simplified: the connection can be opened; states of peers are left out. -/
def ensureConn (s : St) (k f : Nat) : Except Fault St :=
  match s.peerFd k with
  | some _ => .ok s
  | none =>
    if s.isOpen f then .error .impossible
    else next (addRfd { s with isOpen := upd s.isOpen f true, peerFd := upd s.peerFd k (some f) } f .bytes)
      fun s1 => .ok { s1 with fds := upd s1.fds f { s1.fds f with lid := some k } }

/-- Sending to several processes: `send_cmd`, src/backend-tcp2.c 631-644. -/
def sendAll (s : St) : List (Nat × Nat) → Except Fault St
  | [] => .ok s
  | (k, f) :: r => next (ensureConn s k f) fun s1 => sendAll s1 r

/-- `close` with `rm_rfd`, src/backend-tcp2.c 1070-1071 and 1638-1639. -/
def closeFd (s : St) (fd : Nat) : Except Fault St :=
  rmRfd { s with isOpen := upd s.isOpen fd false } fd

/-- `got_quit`, src/backend-tcp2.c 1064-1073. -/
def gotQuit (s : St) (fd : Nat) : Except Fault St :=
  next (closeFd s fd) fun s1 =>
    match (s.fds fd).lid with
    | none => .ok s1
    | some k => .ok { s1 with peerFd := upd s1.peerFd k none }

/-- `got_myid`, src/backend-tcp2.c 919-957.  Simplified: numbers up to `maxid` are known with
host and port. -/
def gotMyid (s : St) (fd k : Nat) : Except Fault St :=
  match (s.fds fd).lid with
  | some _ => .ok s
  | none =>
    if s.mylid = k then .ok s
    else if maxPeers ≤ k ∨ s.maxid < k then .error .badId
    else .ok { s with peerFd := upd s.peerFd k (some fd), fds := upd s.fds fd { s.fds fd with lid := some k } }

/-- Queue a command: src/backend-tcp2.c 846-851, 967-972. -/
def queueCmd (s : St) (fd : Nat) : Except Fault St :=
  if (s.fds fd).cmd then .error .queued
  else .ok { s with fds := upd s.fds fd { s.fds fd with cmd := true } }

/-- `got_register`, src/backend-tcp2.c 826-917.  The contents of the table are left out (C72). -/
def gotRegister (s : St) (fd : Nat) : Except Fault St :=
  if s.mylid ≠ 0 then .ok s
  else match (s.fds fd).lid with
    | some _ => .ok s
    | none =>
      if s.starting then
        if maxPeers ≤ s.maxid + 1 then .error .tooManyPeers
        else .ok { s with
          maxid := s.maxid + 1
          peerFd := upd s.peerFd (s.maxid + 1) (some fd)
          fds := upd s.fds fd { s.fds fd with lid := some (s.maxid + 1) } }
      else queueCmd s fd

/-- `got_cutoff`, src/backend-tcp2.c 961-1021; removal requests: C41. -/
def gotCutoff (s : St) (fd : Nat) : Except Fault St :=
  if s.inst then .ok s else queueCmd s fd

/-- `got_cmd`, src/backend-tcp2.c 1473-1518. -/
def gotCmd (s0 : St) (fd : Nat) (c : Cmd) : Except Fault St :=
  let s := { s0 with log := s0.log ++ [(fd, c)] }
  match c with
  | .quit => gotQuit s fd
  | .myid k => gotMyid s fd k
  | .register => gotRegister s fd
  | .cutoff => gotCutoff s fd
  | .other _ l => match (s.fds fd).lid with
    | none => .ok s
    | some _ => sendAll s l

/-- `process_rbuf`, src/backend-tcp2.c 1520-1594: if the buffer was freed by "quit" and there
are more bytes, these are read and written. -/
def processRbuf (s : St) (fd : Nat) : List Cmd → Option Cmd → Except Fault St
  | [], r =>
    if (s.fds fd).buf then .ok { s with fds := upd s.fds fd { s.fds fd with part := r } }
    else if r = none then .ok s else .error .freed
  | c :: ls, r =>
    if (s.fds fd).buf then next (gotCmd s fd c) fun s1 => processRbuf s1 fd ls r
    else .error .freed

/-- End of the input in `got_bytes`, src/backend-tcp2.c 1614-1641. -/
def gotEnd (s : St) (fd : Nat) : Except Fault St :=
  next (match (s.fds fd).part with
    | none => .ok s
    | some c => processRbuf s fd [c] none) fun s1 =>
  match (s1.fds fd).lid with
  | none => closeFd s1 fd
  | some k =>
    if s1.peerFd k = some fd then closeFd { s1 with peerFd := upd s1.peerFd k none } fd
    else .error .wrongPeer

/-- `got_connect`, src/backend-tcp2.c 1658-1681. -/
def gotConnect (s : St) (f : Nat) : Except Fault St :=
  if s.isOpen f then .error .impossible
  else addRfd { s with isOpen := upd s.isOpen f true } f .bytes

/-- Call of the callback, src/backend-tcp2.c 491-492; `got_bytes`: 1596-1656. -/
def callback (s0 : St) (i : Nat) (x : In) : Except Fault St :=
  let s := { s0 with calls := s0.calls ++ [i] }
  match (s.fds i).cb, x with
  | none, _ => .error .nullCb
  | some .connect, .conn f => gotConnect s f
  | some .connect, _ => .error .impossible
  | some .bytes, .conn _ => .error .impossible
  | some .bytes, .lines ls r => processRbuf s i ls r
  | some .bytes, .eof => gotEnd s i
  | some .bytes, .err => .ok s

/-- Loop over the ready descriptors, src/backend-tcp2.c 489-493: `maxfds` may change. -/
def loop (s : St) : List (Nat × In) → Except Fault St
  | [] => .ok s
  | (i, x) :: r => if s.maxfds < i then .ok s else next (callback s i x) fun s1 => loop s1 r

/-- Ready descriptors in ascending order and asked for: result of `select`. -/
def selected (s : St) (l : List (Nat × In)) : Bool :=
  l.all (fun p => s.rset p.1) && decide (l.Pairwise fun a b => a.1 < b.1)

/-- One event; `select` is asked for descriptors up to `maxfds`, src/backend-tcp2.c 487-488. -/
def step (s : St) : Ev → Except Fault St
  | .round l => if selected s l then loop s l else .error .impossible
  | .send k f => ensureConn s k f
  | .mode a b => .ok { s with starting := a, inst := b }

/-- A run. -/
def run (s : St) : List Ev → Except Fault St
  | [] => .ok s
  | e :: t => next (step s e) fun s1 => run s1 t

/-- `new_inst_data`, src/backend-tcp2.c 1691-1737, with descriptors open before. -/
def blank (used : Nat → Bool) (mylid maxid : Nat) : St where
  fds := fun _ => ⟨none, none, false, false, none⟩
  rset := fun _ => false
  maxfds := 0
  peerFd := fun _ => none
  maxid := maxid
  mylid := mylid
  starting := true
  inst := false
  isOpen := used
  calls := []
  log := []

/-- The listening socket is registered, src/backend-tcp2.c 1952, then events. -/
def start (used : Nat → Bool) (mylid maxid listen : Nat) (evs : List Ev) : Except Fault St :=
  next (addRfd (blank used mylid maxid) listen .connect) fun s => run s evs

end Laik.Lp
