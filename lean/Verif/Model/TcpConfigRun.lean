import Verif.Spec.TcpConfig

/-!
# Configuration of the TCP backend: objects, references and the update thread

`src/backends/tcp/config.c` 202-339.  `laik_tcp_config` and the second part of
`laik_tcp_config_update` run under one lock, so each of them is one step; the counters are
atomic ones, so giving up a reference is one step.  What is read from the file is part of
the events (`Model/TcpConfig` for the contents).  `laik_tcp_time` gives one value per call.
The number of references is unbounded.
-/

namespace Laik.Cf

/-- A `Laik_Tcp_Config` in memory: contents, `references`, whether `g_free` was called. -/
structure Obj (α : Type) where
  val : α
  refs : Nat
  freed : Bool
  deriving DecidableEq

/-- Where an update thread is: before the end of `laik_tcp_config_new_custom`, before the
lock with its variable `update`, or after the lock has been released. -/
inductive Upd
  | started
  | loaded (update : Option Nat)
  | ended
  deriving DecidableEq

/-- The static variables of `src/backends/tcp/config.c` 30-34 (`config`, `running`,
`thread`, `timestamp`), all objects and update threads ever made, and the references users
have. -/
structure St (α : Type) where
  objs : List (Obj α)
  cur : Option Nat
  running : Bool
  thread : Option Nat
  stamp : Nat
  upds : List Upd
  held : List Nat
  deriving DecidableEq

/-- Ends of a run other than regular ones: use of a freed object, `laik_tcp_errors_abort`,
waiting for a thread which needs the own lock, losing the only handle of a thread, a failed
`laik_tcp_always`, and `impossible`: not a failure, the event cannot happen here. -/
inductive Fault
  | freed
  | aborted
  | deadlock
  | lostThread
  | always
  | impossible
  deriving DecidableEq

def init {α : Type} : St α where
  objs := []
  cur := none
  running := false
  thread := none
  stamp := 0
  upds := []
  held := []

variable {α : Type}

/-- `laik_tcp_config_ref`, `src/backends/tcp/config.c` 319-325. -/
def refObj (s : St α) (o : Nat) : Except Fault (St α) :=
  match s.objs[o]? with
  | none => .error .always
  | some x =>
    if x.freed then .error .freed
    else .ok { s with objs := s.objs.set o { x with refs := x.refs + 1 } }

/-- `laik_tcp_config_unref`, `src/backends/tcp/config.c` 327-339. -/
def unrefObj (s : St α) (o : Nat) : Except Fault (St α) :=
  match s.objs[o]? with
  | none => .error .always
  | some x =>
    if x.freed then .error .freed
    else if x.refs - 1 = 0 then
      .ok { s with objs := s.objs.set o { x with refs := 0, freed := true } }
    else .ok { s with objs := s.objs.set o { x with refs := x.refs - 1 } }

/-- `laik_tcp_config_new_custom`, `src/backends/tcp/config.c` 202-258: makes an object with
one reference; on errors the automatic cleanup of `this` gives it up. -/
def newObj (s : St α) (c : α) (ok : Bool) : Except Fault (St α × Option Nat) :=
  let s1 := { s with objs := s.objs ++ [{ val := c, refs := 1, freed := false }] }
  if ok then .ok (s1, some s.objs.length)
  else match unrefObj s1 s.objs.length with
    | .error e => .error e
    | .ok s2 => .ok (s2, none)

/-- The loop of `laik_tcp_config`, `src/backends/tcp/config.c` 283-298, from `try` on;
`left` is `10 - try`. -/
def firstLoad (f : Nat → α × Bool) : Nat → Nat → St α → Except Fault (St α)
  | left, tr, s =>
    match newObj s (f tr).1 (f tr).2 with
    | .error e => .error e
    | .ok (s1, some o) => .ok { s1 with cur := some o }
    | .ok (s1, none) =>
      match left with
      | 0 => .error .aborted
      | l + 1 => firstLoad f l (tr + 1) s1

/-- "If a thread was started and has finished in the mean time, reap it",
`src/backends/tcp/config.c` 300-305; `g_thread_join` with the lock held. -/
def reap (s : St α) : Except Fault (St α) :=
  match s.thread with
  | none => .ok s
  | some t =>
    if s.running then .ok s
    else if s.upds[t]? = some .ended then .ok { s with thread := none }
    else .error .deadlock

/-- "If no configuration update is running but its overdue, start it",
`src/backends/tcp/config.c` 307-313. -/
def start (s : St α) (now : Nat) : Except Fault (St α) :=
  if s.running = false ∧ now > s.stamp + 1000 then
    match s.thread with
    | some _ => .error .lostThread
    | none => .ok { s with running := true, stamp := now, thread := some s.upds.length,
                           upds := s.upds ++ [.started] }
  else .ok s

/-- The initial part of `laik_tcp_config`, `src/backends/tcp/config.c` 280-298. -/
def firstPart (s : St α) (now : Nat) (f : Nat → α × Bool) : Except Fault (St α) :=
  match s.cur with
  | some _ => .ok s
  | none => match firstLoad f 10 0 s with
    | .error e => .error e
    | .ok s1 => .ok { s1 with stamp := now }

/-- `laik_tcp_config`, `src/backends/tcp/config.c` 280-317. -/
def call (s : St α) (now : Nat) (f : Nat → α × Bool) : Except Fault (St α) := do
  let s ← firstPart s now f
  let s ← reap s
  let s ← start s now
  match s.cur with
  | none => .error .always
  | some o =>
    let s ← refObj s o
    .ok { s with held := s.held ++ [o] }

/-- The end of a block with `g_autoptr (Laik_Tcp_Config)`, e.g.
`src/backends/tcp/client.c` 147. -/
def drop (s : St α) (k : Nat) : Except Fault (St α) :=
  match s.held[k]? with
  | none => .error .impossible
  | some o => match unrefObj s o with
    | .error e => .error e
    | .ok s1 => .ok { s1 with held := s1.held.eraseIdx k }

/-- First part of `laik_tcp_config_update`, `src/backends/tcp/config.c` 261-263. -/
def load (s : St α) (t : Nat) (c : α) (ok : Bool) : Except Fault (St α) :=
  if s.upds[t]? = some .started then
    match newObj s c ok with
    | .error e => .error e
    | .ok (s1, o) => .ok { s1 with upds := s1.upds.set t (.loaded o) }
  else .error .impossible

/-- `laik_tcp_config_unref (config)`, which does nothing for `NULL`. -/
def unrefCur (s : St α) : Except Fault (St α) :=
  match s.cur with
  | none => .ok s
  | some o => unrefObj s o

/-- Second part of `laik_tcp_config_update`, `src/backends/tcp/config.c` 265-278. -/
def install (s : St α) (t : Nat) : Except Fault (St α) :=
  match s.upds[t]? with
  | some (.loaded (some n)) =>
    match unrefCur s with
    | .error e => .error e
    | .ok s1 => .ok { s1 with cur := some n, running := false, upds := s1.upds.set t .ended }
  | some (.loaded none) => .ok { s with running := false, upds := s.upds.set t .ended }
  | _ => .error .impossible

def step (s : St α) : Ev α → Except Fault (St α)
  | .call now f => call s now f
  | .drop k => drop s k
  | .load t c ok => load s t c ok
  | .install t => install s t

/-- A run, stopped at the first fault. -/
def run : List (Ev α) → St α → Except Fault (St α)
  | [], s => .ok s
  | e :: t, s => match step s e with
    | .error f => .error f
    | .ok s1 => run t s1

end Laik.Cf
