import Verif.Spec.AsyncExec
import Verif.Model.MpiPrepare
/-!
# Model of asynchronous communication in the MPI backend
(`laik_mpi_asyncSendRecv`, `src/backend-mpi.c` 214-262; used by default)
-/

namespace Laik.Mp

open NX

variable {β : Type}

/-- Actions after `laik_mpi_asyncSendRecv`: MpiReq, MpiIsend, MpiIrecv, MpiWait
(src/backend-mpi.c 91-125) or another one. -/
inductive ABody (β : Type)
  | body (b : CBody β)
  | req (count : Nat)
  | isend (id q ptr cnt : Nat)
  | irecv (id q ptr cnt : Nat)
  | wait (id : Nat)

/-- Counted actions, src/backend-mpi.c 224-225. -/
def isP2p : CBody β → Bool
  | .comm (.send _) _ _ _ => true
  | .comm (.recv _) _ _ _ => true
  | _ => false

/-- Second loop, src/backend-mpi.c 237-262; `mr` is `maxround`, the first argument
`req_id`. -/
def asyncGo (mr : Nat) : Nat → List (Act (CBody β)) → List (Act (ABody β))
  | _, [] => []
  | id, a :: l =>
    match a.content with
    | .comm (.send q) s _ cnt => ⟨a.round + 1, .other, .isend id q s cnt⟩ :: ⟨mr + 2, .other, .wait id⟩ :: asyncGo mr (id + 1) l
    | .comm (.recv q) _ d cnt => ⟨0, .other, .irecv id q d cnt⟩ :: ⟨a.round + 1, .other, .wait id⟩ :: asyncGo mr (id + 1) l
    | b => ⟨a.round + 1, .other, .body b⟩ :: asyncGo mr id l

/-- First loop, src/backend-mpi.c 222-226: `maxround`. -/
def maxRound (l : List (Act (CBody β))) : Nat := l.foldl (fun m a => max m a.round) 0

/-- `laik_mpi_asyncSendRecv`, src/backend-mpi.c 214-270; without any send or
receive the sequence is not changed (228). -/
def asyncSeq (l : List (Act (CBody β))) : List (Act (ABody β)) :=
  let count := (l.filter (fun a => isP2p a.content)).length
  if count = 0 then l.map (fun a => ⟨a.round, a.kind, .body a.content⟩)
  else ⟨0, .other, .req count⟩ :: asyncGo (maxRound l) 0 l

/-- `laik_mpi_prepare`, src/backend-mpi.c 992-1051, with asynchronous communication
(`mpi_async` is 1, the default). -/
def PCtx.AsyncPrepared (c : PCtx β) (inUse : Nat → Prop) (B1 B2 B3 : Nat) (ops : List TOp) (prog : List (ABody β)) : Prop :=
  ∃ l5 s r, c.PreparedSeq inUse B1 B2 B3 ops l5 ∧ IsPtrSort cmpRounds (asyncSeq l5) s ∧ sortSeq (asyncSeq l5) s = some r ∧
    prog = r.map (·.content)

/-- Blocking actions as executed by `laik_mpi_exec`; sends and receives are
replaced by `laik_mpi_asyncSendRecv`. -/
def PCtx.bexec (c : PCtx β) (b : CBody β) : AAct β :=
  match c.exec b with
  | .loc f => .loc f
  | .coll k out inn => .coll k out inn
  | .send _ _ => .loc id
  | .recv _ _ _ => .loc id

/-- `laik_mpi_exec`, src/backend-mpi.c 680-955, one action (745-785 for the new
ones).  MpiReq only sets the array of requests.  The size of the message of a
receive is not checked; in the semantics it must be as expected. -/
def PCtx.aexec (c : PCtx β) : ABody β → Option (AAct β)
  | .req _ => none
  | .isend id q s cnt => some (.isend ⟨id, q, s, cnt * c.es⟩)
  | .irecv id q d cnt => some (.irecv ⟨id, q, d, cnt * c.es⟩)
  | .wait id => some (.wait id)
  | .body b => some (c.bexec b)

/-- What a process does in `doTransition` (src/data.c 779-860): prepare, execute,
local copies. -/
def PCtx.IsAsyncSwitch (c : PCtx β) (inUse : Nat → Prop) (skip : Int → Int → Bool) (ops : List TOp) (prog : List (AAct β)) : Prop :=
  ∃ B1 B2 B3 p1 p2, c.AsyncPrepared inUse B1 B2 B3 ops p1 ∧ collect (c.copyLoc skip) ops = some p2 ∧
    prog = p1.filterMap c.aexec ++ p2.map c.bexec

end Laik.Mp
