import Verif.Spec.ReqQueue
import Verif.Model.TcpResize
/-!
# Model of the queue of resize requests

`laik_add_resize_req`, `laik_allow_world_resize` of `src/core.c`, with
`tcp2_make_progress`, `got_cutoff`, queueing in `got_register` and the
processing of requests in `tcp2_resize` of `src/backend-tcp2.c`, in the
master.  A failed assert or the use of a null pointer is `none`.
-/

namespace Laik.Rsz

/-- `fds[fd].state` and `fds[fd].cmd`: nothing queued, `PS_RegReceived`,
`PS_RegReceived2`, or `PS_CutoffReceived` (`none`: `cmd` is null; otherwise
the LIDs to be matched). -/
inductive FS where
  | idle
  | reg
  | reg2
  | cut (ls : Option (List Nat))
  deriving DecidableEq, Repr

/-- State of the master: world (by LIDs), `instance->resizeRequests` with the
entries up to `used` (`none`: null pointer), state of connections, whether a
LID is assigned to a connection (`fds[fd].lid >= 0`), and all requests served
so far (not in the code). -/
structure Qs where
  w : World
  q : Option (List Rq)
  fs : Nat → FS
  regd : Nat → Bool
  served : List Rq

/-- `MAX_FDS`, src/backend-tcp2.c 183. -/
def maxFds : Nat := 256

/-- Size of the array of requests, src/core.c 612. -/
def maxReqs : Nat := 100

/-- `laik_add_resize_req`, src/core.c 608-620. -/
def addReq (q : Option (List Rq)) (r : Rq) : Option (Option (List Rq)) :=
  if (q.getD []).length < maxReqs then some (some (q.getD [] ++ [r])) else none

def addAll : Option (List Rq) → List Rq → Option (Option (List Rq))
  | q, [] => some q
  | q, r :: rs => (addReq q r).bind fun q' => addAll q' rs

/-- Something arrives outside of the startup: `got_register`
(src/backend-tcp2.c 826-852, only the part queueing the request),
`got_cutoff` (961-1020; with the LIDs matched, and 965-973 if there is no
instance yet), `got_bytes` with the connection closed (1613-1639).
Simplification: which LIDs match a pattern is an input. -/
def evStep (s : Qs) : Ev → Option Qs
  | .reg fd =>
    if fd < maxFds then
      if s.regd fd then some s
      else if s.fs fd = .idle ∨ s.fs fd = .cut none then some { s with fs := upd s.fs fd .reg }
      else none
    else none
  | .cut ls => (addAll s.q (ls.map .remove)).map fun q => { s with q := q }
  | .early fd ls =>
    if fd < maxFds ∧ (s.fs fd = .idle ∨ s.fs fd = .cut none) then
      some { s with fs := upd s.fs fd (.cut (some ls)) }
    else none
  | .close fd => some { s with fs := upd s.fs fd .idle, regd := upd s.regd fd false }

def evs : Qs → List Ev → Option Qs
  | s, [] => some s
  | s, e :: es => (evStep s e).bind fun s' => evs s' es

/-- Loop body of `tcp2_make_progress`, src/backend-tcp2.c 2478-2495. -/
def progStep (s : Qs) (fd : Nat) : Option Qs :=
  match s.fs fd with
  | .reg => (addReq s.q (.join fd)).map fun q => { s with q := q, fs := upd s.fs fd .reg2 }
  | .cut none => none
  | .cut (some ls) =>
    (addAll s.q (ls.map .remove)).map fun q => { s with q := q, fs := upd s.fs fd (.cut none) }
  | _ => some s

def progL : Qs → List Nat → Option Qs
  | s, [] => some s
  | s, fd :: fds => (progStep s fd).bind fun s' => progL s' fds

/-- `tcp2_make_progress`, src/backend-tcp2.c 2470-2496 (what arrives in
`check_loop` are events before). -/
def progress (s : Qs) : Option Qs := progL s (List.range maxFds)

/-- The request as processed by `tcp2_resize`. -/
def Rq.toReq : Rq → Req
  | .join _ => .join
  | .remove l => .remove l

/-- Replay of `register` for the join requests, src/backend-tcp2.c
2641-2654, with the asserts on the connection. -/
def replay : (Nat → FS) → (Nat → Bool) → List Rq → Option (Nat → Bool)
  | _, rg, [] => some rg
  | fs, rg, .join fd :: rs =>
    if fs fd = .reg2 ∧ rg fd = false then replay fs (upd rg fd true) rs else none
  | fs, rg, .remove _ :: rs => replay fs rg rs

/-- Processing of requests in `tcp2_resize`, src/backend-tcp2.c 2637-2664.
For the resulting world, see C40. -/
def serve (s : Qs) : Option Qs :=
  let l := s.q.getD []
  match replay s.fs s.regd l,
    doReqs s.w.n (fun k => if s.w.alive k = true then .inResize else .dead) (l.map Rq.toReq) with
  | some rg, some _ =>
    some { s with regd := rg, q := some [], served := s.served ++ l, w := s.w.next (l.map Rq.toReq) }
  | _, _ => none

/-- `laik_allow_world_resize`, src/core.c 535-581, in the master: `mid1`
arrives while waiting for the others to enter the resize, `mid2` after
processing the requests. -/
def resizeQ (s : Qs) (mid1 mid2 : List Ev) : Option Qs :=
  match progress s with
  | none => none
  | some s1 =>
    match evs s1 mid1 with
    | none => none
    | some s2 =>
      match s1.q with
      | none => evs s2 mid2
      | some _ =>
        match serve s2 with
        | none => none
        | some s3 => (evs s3 mid2).map fun s4 => { s4 with q := some [] }

/-- A history. -/
def runQ : Qs → List Op → Option Qs
  | s, [] => some s
  | s, .ev e :: ops => (evStep s e).bind fun s' => runQ s' ops
  | s, .resize a b :: ops => (resizeQ s a b).bind fun s' => runQ s' ops

/-- Requests at connections, not in the queue yet. -/
def wait1 (fs : Nat → FS) (fd : Nat) : List Rq :=
  match fs fd with
  | .reg => [.join fd]
  | .cut (some ls) => ls.map .remove
  | _ => []

def Qs.waiting (s : Qs) : List Rq := (List.range maxFds).flatMap (wait1 s.fs)
def Qs.queue (s : Qs) : List Rq := s.q.getD []

/-- `laik_set_world`, src/core.c 346-358: world (by group) and epoch. -/
def setWorldId (i : Nat × Int) (g : Nat) : Nat × Int := if i.1 = g then i else (g, i.2 + 1)

end Laik.Rsz
