import Mathlib.Data.List.Basic
/-!
# What a resize of the world should result in

Location IDs (LIDs) are numbers below `n`; each has a role in the resize.
-/

namespace Laik.Rsz

/-- Role of a location ID: unused (not any more), in old and new world, new in
the world, or leaving it. -/
inductive Role where
  | gone
  | stay
  | fresh
  | leave
  deriving DecidableEq, Repr

/-- LIDs of the old world, in order. -/
def olds (role : Nat → Role) (n : Nat) : List Nat :=
  (List.range n).filter fun l => role l = .stay ∨ role l = .leave

/-- LIDs of the new world, in order. -/
def members (role : Nat → Role) (n : Nat) : List Nat :=
  (List.range n).filter fun l => role l = .stay ∨ role l = .fresh

/-- For each process of the new world its index in the old one, or -1. -/
def toPar (role : Nat → Role) (n : Nat) : List Int :=
  (members role n).map fun l => if role l = .stay then ((olds role n).idxOf l : Int) else -1

/-- For each process of the old world its index in the new one, or -1. -/
def fromPar (role : Nat → Role) (n : Nat) : List Int :=
  (olds role n).map fun l => if role l = .stay then ((members role n).idxOf l : Int) else -1

/-- A request for the next resize: a process wants to join, or the process
with a LID is to be removed. -/
inductive Req where
  | join
  | remove (lid : Nat)
  deriving DecidableEq, Repr

def joins : List Req → Nat
  | [] => 0
  | .join :: rs => joins rs + 1
  | .remove _ :: rs => joins rs

def rms : List Req → List Nat
  | [] => []
  | .join :: rs => rms rs
  | .remove l :: rs => l :: rms rs

/-- LIDs given so far are those below `n`; the ones still alive are the
members of the world. -/
structure World where
  n : Nat
  alive : Nat → Bool

def World.live (w : World) : List Nat := (List.range w.n).filter w.alive

/-- What the requests mean for a LID. -/
def World.role (w : World) (reqs : List Req) (l : Nat) : Role :=
  if w.n + joins reqs ≤ l then .gone
  else if w.n ≤ l then .fresh
  else if w.alive l = true then (if l ∈ rms reqs then .leave else .stay)
  else .gone

/-- The world after serving the requests. -/
def World.next (w : World) (reqs : List Req) : World :=
  { n := w.n + joins reqs, alive := fun l => w.role reqs l = .stay ∨ w.role reqs l = .fresh }

/-- Requests which can be served: removal at most once, of a process other
than the master, and at most 256 LIDs over time. -/
def World.Valid (w : World) (reqs : List Req) : Prop :=
  (rms reqs).Nodup ∧ (∀ l ∈ rms reqs, 0 < l ∧ l < w.n ∧ w.alive l = true) ∧ w.n + joins reqs ≤ 256

end Laik.Rsz
