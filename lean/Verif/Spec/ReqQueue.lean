import Verif.Spec.Resize
/-!
# Requests for resizes as they arrive
-/

namespace Laik.Rsz

/-- A request: the process at a connection wants to join, or a process is to
be removed. -/
inductive Rq where
  | join (fd : Nat)
  | remove (lid : Nat)
  deriving DecidableEq, Repr

/-- What arrives at the master: `register` at a connection, `cutoff` matching
some processes, `cutoff` before LAIK is initialized (at a connection), closing
of a connection. -/
inductive Ev where
  | reg (fd : Nat)
  | cut (lids : List Nat)
  | early (fd : Nat) (lids : List Nat)
  | close (fd : Nat)
  deriving DecidableEq, Repr

/-- Requests in what arrives. -/
def Ev.reqs : Ev → List Rq
  | .reg fd => [.join fd]
  | .cut ls => ls.map .remove
  | .early _ ls => ls.map .remove
  | .close _ => []

/-- In the history of the master: something arrives, or the application allows
a resize, with what arrives while waiting for the others to enter the resize,
and after the requests got served. -/
inductive Op where
  | ev (e : Ev)
  | resize (mid1 mid2 : List Ev)
  deriving DecidableEq, Repr

/-- All that arrives in a history. -/
def evsOf : List Op → List Ev
  | [] => []
  | .ev e :: ops => e :: evsOf ops
  | .resize a b :: ops => a ++ b ++ evsOf ops

/-- Connections registering. -/
def regsOf : List Ev → List Nat
  | [] => []
  | .reg fd :: es => fd :: regsOf es
  | _ :: es => regsOf es

def Ev.isClose : Ev → Bool
  | .close _ => true
  | _ => false

def Ev.isCut : Ev → Bool
  | .cut _ => true
  | _ => false

/-- Number of changes in a list of worlds set one after the other. -/
def worldChanges : Nat → List Nat → Nat
  | _, [] => 0
  | w, v :: vs => (if w = v then 0 else 1) + worldChanges v vs

end Laik.Rsz
