import Verif.Model.Names
import Verif.Spec.TcpStatus

/-!
# Status command of the TCP2 backend

`src/backend-tcp2.c`: `get_statestring`, `got_status`.  A client may ask at any time.
-/

namespace Laik.Sg

open Codec

/-- `PeerState`, src/backend-tcp2.c 209-233. -/
inductive PS
  | invalid | unknown | cutoffReceived | beforeReg | regReceived | regReceived2 | regAccepted | regFinishing | regFinished
  | inStartup | inStartup2 | noConnect | ready | readyRemove | dead | error | inResize | inResize1 | inResize2 | inResize3
  | inResizeRemove | inResizeRemove2 | inResizeRemove3
  deriving DecidableEq, Repr

/-- Part of `Peer`, src/backend-tcp2.c 237-243: `none` for the texts is 0, for `fd` -1. -/
structure Peer where
  state : PS
  fd : Option Nat
  port : Int
  host : Option Text
  location : Option Text
  bin : Bool

/-- Part of `FDState`, src/backend-tcp2.c 267-271: `none` for `lid` is -1. -/
structure Conn where
  state : PS
  lid : Option Nat
  cmd : Option Text

/-- Part of `InstData`, src/backend-tcp2.c 280-309.  `n` is `maxid + 1`; `mylid` is `none`
before a number is assigned. -/
structure Tab where
  mystate : PS
  mylid : Option Nat
  n : Nat
  peer : Nat → Peer
  fds : Nat → Conn

/-- What may go wrong: assert in `get_statestring` (357), text written behind `msg[200]`, a
text printed which is not there. -/
inductive Fault
  | assert
  | overflow
  | null
  deriving DecidableEq, Repr

/-- `get_statestring`, src/backend-tcp2.c 355-448; `none`: the assert in 357. -/
def stateString : PS → Option Text
  | .invalid => none
  | .unknown => some "unknown".toList
  | .cutoffReceived => some "cutoff command queued, waiting".toList
  | .beforeReg => some "about to register".toList
  | .regReceived => some "registration started, waiting".toList
  | .regReceived2 => some "registration started, waiting".toList
  | .regAccepted => some "registration accepted, in info exchange".toList
  | .regFinishing => some "registration about to finish".toList
  | .regFinished => some "".toList
  | .inStartup => some "in startup phase, waiting for enough peers to join".toList
  | .inStartup2 => some "in startup phase, waiting for registrations to finish".toList
  | .noConnect => some "not ready for direct connections".toList
  | .ready => some "ready".toList
  | .readyRemove => some "ready, marked for removal".toList
  | .dead => some "dead, got removed".toList
  | .error => some "error, connectivity broken".toList
  | .inResize => some "in resize mode".toList
  | .inResize1 => some "in resize mode, joined by all peers".toList
  | .inResize2 => some "in resize mode, sent ready request to peers".toList
  | .inResize3 => some "in resize mode, got ready confirmation from peers".toList
  | .inResizeRemove => some "in resize mode, peer marked for removal".toList
  | .inResizeRemove2 => some "in resize mode, peer marked for removal, sent ready confirmation request".toList
  | .inResizeRemove3 => some "in resize mode, peer marked for removal, got ready confirmation".toList

/-- `sprintf` to `msg[200]` (1080) and `send_cmd`. -/
def put (t : Text) : Except Fault (List Text) :=
  match Nm.sprintfTo 200 t with
  | some t => .ok [t]
  | none => .error .overflow

/-- One after the other. -/
def app (a b : Except Fault (List Text)) : Except Fault (List Text) :=
  match a with
  | .error e => .error e
  | .ok x => match b with
    | .error e => .error e
    | .ok y => .ok (x ++ y)

/-- `%2d`. -/
def pad2 (n : Nat) : Text := if (digits n).length < 2 then ' ' :: digits n else digits n

/-- State shown for a process: 1094-1095. -/
def stateOf (T : Tab) (i : Nat) : PS := if some i = T.mylid then T.mystate else (T.peer i).state

/-- Body of the first loop of `got_status`, src/backend-tcp2.c 1086-1096. -/
def outPeer (T : Tab) (i : Nat) : Except Fault (List Text) :=
  let p := T.peer i
  match p.location, p.host with
  | some l, some h =>
    app (put (tLid ++ pad2 i ++ tLoc ++ l ++ tHost ++ h ++ tPort ++ printInt p.port ++
      tFlags ++ [if p.bin then 'b' else '-']))
    (app (match p.fd with
      | none => .ok []
      | some f => put (tOpen ++ digits f))
    (match stateString (stateOf T i) with
      | none => .error .assert
      | some s => put (tState ++ s ++ ['\''])))
  | _, _ => .error .null

/-- First loop, src/backend-tcp2.c 1085-1097. -/
def outPeers (T : Tab) : List Nat → Except Fault (List Text)
  | [] => .ok []
  | i :: r => app (outPeer T i) (outPeers T r)

/-- Entry of a connection, src/backend-tcp2.c 1106-1113; `fd`: the connection asking. -/
def outConn (T : Tab) (fd i : Nat) : Except Fault (List Text) :=
  match stateString (T.fds i).state with
  | none => .error .assert
  | some s =>
    app (put (tAt ++ pad2 i ++ (if i = fd then tThis else []) ++ tSt ++ s ++ ['\'']))
    (match (T.fds i).cmd with
      | none => .ok []
      | some c => put (tQueued ++ c ++ ['\'']))

/-- Second loop, src/backend-tcp2.c 1098-1114; `sent` is `header_sent`. -/
def outConns (T : Tab) (fd : Nat) : Bool → List Nat → Except Fault (List Text)
  | _, [] => .ok []
  | sent, i :: r =>
    if (T.fds i).state = .invalid then outConns T fd sent r
    else if (T.fds i).lid ≠ none then outConns T fd sent r
    else app (.ok (if sent then [] else [tUnknown])) (app (outConn T fd i) (outConns T fd true r))

/-- `got_status`, src/backend-tcp2.c 1075-1115: lines sent to the connection `fd`. `MAX_FDS`
is 256. -/
def gotStatus (T : Tab) (fd : Nat) : Except Fault (List Text) :=
  app (.ok [tKnown]) (app (outPeers T (List.range T.n)) (outConns T fd false (List.range 256)))

end Laik.Sg
