import Verif.Spec.TcpConn

/-!
# Connections between processes in the TCP2 backend

`src/backend-tcp2.c`.  All processes are registered (`n` of them, LIDs 0 to n - 1) and
ready: each is connected with the master, other connections are opened by the first
message.  A connection is a pair of queues, one for each end.  A message is one command
without the framing (framing: C23); file descriptors are numbers of connections with an
end, so a number is not used again after close.  Simplified: a connection to a living
process succeeds; a process which ends closes its connections and what it has written
before still arrives; read errors do not happen; no commands "quit", "register",
"cutoff" and no comments ("#").
-/

namespace Laik.Co

/-- What is written into a connection: the command "myid" (`src/backend-tcp2.c` 616-621)
or another command. -/
inductive Item
  | myid (k : Nat)
  | msg (m : Nat)
  deriving DecidableEq

/-- A connection; end `false` is the process which called `connect`, end `true` the one
with the listening socket.  `own b`: process at end `b`; `q b`: what process `own b` can
read; `lid b`: `fds[fd].lid` of this process (`none`: -1); `op b`: this process has not
closed it; `acc`: accepted.  `src/backend-tcp2.c` 267-278, 453-466. -/
structure Conn where
  own : Bool → Nat
  acc : Bool
  q : Bool → List Item
  lid : Bool → Option Nat
  op : Bool → Bool

/-- State of all processes.  `fd i j`: `peer[j].fd` of process `i`; `err i j`:
`peer[j].state` is `PS_Error` in process `i`; `log`: (process, LID of sender, message)
for each command handled.  `src/backend-tcp2.c` 238-309. -/
structure St where
  conns : List Conn
  fd : Nat → Nat → Option (Nat × Bool)
  err : Nat → Nat → Bool
  dead : Nat → Bool
  log : List (Nat × Nat × Nat)

/-- `ident`: assertion in `got_myid`; `closed`: assertion on closed connections. -/
inductive Fault
  | ident
  | closed
  deriving DecidableEq

def upd {A : Type} (f : Bool → A) (b : Bool) (v : A) : Bool → A :=
  fun x => if x = b then v else f x

def upd2 {A : Type} (f : Nat → Nat → A) (i j : Nat) (v : A) : Nat → Nat → A :=
  fun x y => if x = i ∧ y = j then v else f x y

/-- Connection opened by `i` to the listening port of `j`: `fds[fd].lid` of `i` is set,
that of `j` is not known, "myid" is written.  `src/backend-tcp2.c` 610-621. -/
def newConn (i j : Nat) : Conn where
  own := fun b => if b then j else i
  acc := false
  q := fun b => if b then [.myid i] else []
  lid := fun b => if b then none else some j
  op := fun _ => true

/-- Connection of process `k` with the master after registration: LIDs known at both
ends.  `src/backend-tcp2.c` 883-896 (`got_register`), 610-612, 1806-1809. -/
def regConn (k : Nat) : Conn where
  own := fun b => if b then 0 else k
  acc := true
  q := fun _ => []
  lid := fun b => if b then some k else some 0
  op := fun _ => true

/-- State after startup with `n` processes.  `src/backend-tcp2.c` 1742-1828. -/
def init (n : Nat) : St where
  conns := (List.range (n - 1)).map (fun k => regConn (k + 1))
  fd := fun i j =>
    if i < n ∧ j < n ∧ i ≠ j then
      (if i = 0 then some (j - 1, true) else if j = 0 then some (i - 1, false) else none)
    else none
  err := fun _ _ => false
  dead := fun _ => false
  log := []

/-- `ensure_conn`, `src/backend-tcp2.c` 560-622. -/
def ensureConn (s : St) (i j : Nat) : St :=
  match s.fd i j with
  | some _ => s
  | none =>
    if s.err i j then s
    else if s.dead j then { s with err := upd2 s.err i j true }
    else { s with conns := s.conns ++ [newConn i j], fd := upd2 s.fd i j (some (s.conns.length, false)) }

/-- The `write` calls of `send_cmd`, `src/backend-tcp2.c` 645-664; what is written to a
closed connection is lost (signal SIGPIPE is ignored, line 1845). -/
def write (s : St) (i j : Nat) (it : Item) : St :=
  match s.fd i j with
  | none => s
  | some (c, b) =>
    match s.conns[c]? with
    | none => s
    | some x =>
      if x.op (!b) then { s with conns := s.conns.set c { x with q := upd x.q (!b) (x.q (!b) ++ [it]) } }
      else s

/-- `send_cmd`, `send_bin`: `src/backend-tcp2.c` 631-693. -/
def send (s : St) (i j m : Nat) : St :=
  let s1 := ensureConn s i j
  if s1.err i j then s1 else write s1 i j (.msg m)

/-- `got_connect`, `src/backend-tcp2.c` 1658-1681. -/
def accept (s : St) (c : Nat) : St :=
  match s.conns[c]? with
  | none => s
  | some x => if x.op true then { s with conns := s.conns.set c { x with acc := true } } else s

/-- `got_myid`, `src/backend-tcp2.c` 919-957: `x` is the connection after the command was
removed from its queue. -/
def gotMyid (n : Nat) (s : St) (c : Nat) (b : Bool) (x : Conn) (k : Nat) : Except Fault St :=
  let s1 : St := { s with conns := s.conns.set c x }
  match x.lid b with
  | some _ => .ok s1
  | none =>
    if k = x.own b then .ok s1
    else if n ≤ k then .error .ident
    else .ok { s with conns := s.conns.set c { x with lid := upd x.lid b (some k) }
                      fd := upd2 s.fd (x.own b) k (some (c, b)) }

/-- `got_cmd` for other commands, `src/backend-tcp2.c` 1473-1518: ignored if the sender
is not known. -/
def gotCmd (s : St) (c : Nat) (b : Bool) (x : Conn) (m : Nat) : St :=
  match x.lid b with
  | none => { s with conns := s.conns.set c x }
  | some k => { s with conns := s.conns.set c x, log := s.log ++ [(x.own b, k, m)] }

/-- End of input, `src/backend-tcp2.c` 1614-1640. -/
def gotEnd (s : St) (c : Nat) (b : Bool) (x : Conn) : Except Fault St :=
  let y : Conn := { x with op := upd x.op b false }
  match x.lid b with
  | none => .ok { s with conns := s.conns.set c y }
  | some k =>
    if s.fd (x.own b) k = some (c, b) then
      .ok { s with conns := s.conns.set c y, fd := upd2 s.fd (x.own b) k none }
    else .error .closed

/-- `got_bytes` with one command or the end of input, `src/backend-tcp2.c` 1596-1656. -/
def read (n : Nat) (s : St) (c : Nat) (b : Bool) : Except Fault St :=
  match s.conns[c]? with
  | none => .ok s
  | some x =>
    if x.op b = true ∧ (b = true → x.acc = true) then
      match x.q b with
      | .myid k :: r => gotMyid n s c b { x with q := upd x.q b r } k
      | .msg m :: r => .ok (gotCmd s c b { x with q := upd x.q b r } m)
      | [] => if x.op (!b) then .ok s else gotEnd s c b x
    else .ok s

/-- Connection after the end of process `i`. -/
def closeOf (i : Nat) (x : Conn) : Conn :=
  { x with op := fun b => if x.own b = i then false else x.op b }

/-- The end of a process: the operating system closes its connections. -/
def exitOf (s : St) (i : Nat) : St :=
  { s with conns := s.conns.map (closeOf i), dead := fun k => if k = i then true else s.dead k }

/-- One event.  Messages of ended processes, to oneself or to unknown processes are no
events of the program. -/
def step (n : Nat) (s : St) : Ev → Except Fault St
  | .send i j m => if s.dead i = true ∨ i = j ∨ n ≤ i ∨ n ≤ j then .ok s else .ok (send s i j m)
  | .accept c => .ok (accept s c)
  | .read c b => read n s c b
  | .exit i => .ok (exitOf s i)

/-- A run. -/
def run (n : Nat) (s : St) : List Ev → Except Fault St
  | [] => .ok s
  | e :: t => match step n s e with
    | .ok s' => run n s' t
    | .error f => .error f

/-- Messages handled by `j` as messages of `i`, in order. -/
def handled (s : St) (i j : Nat) : List Nat :=
  s.log.filterMap (fun e => if e.1 = j ∧ e.2.1 = i then some e.2.2 else none)

/-- At most one connection between two processes. -/
def Single (s : St) : Prop :=
  ∀ (c c' : Nat) (x y : Conn), s.conns[c]? = some x → s.conns[c']? = some y →
    ((x.own false = y.own false ∧ x.own true = y.own true) ∨
     (x.own false = y.own true ∧ x.own true = y.own false)) → c = c'

end Laik.Co
