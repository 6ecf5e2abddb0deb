import Verif.Spec.MiniMpi
/-!
# Communication as seen from outside (specification for C54)

A sequence of events of all processes: messages are handed over one after the other.
-/

namespace Laik.Mm

open Function

/-- An event. `loc`: process `p` computes something. `tr`: a message is handed over on
channel `X`, made by the sender from its state, and changing the state of the receiver.
`bt`: the same for a message with given content which the sender sends in the background;
`fork` and `join` are begin and end of sending in the background for the processes of a
communicator. `none`: an error. -/
inductive Ev (σ : Type)
  | loc (p : Nat) (f : σ → Option σ)
  | tr (X : Chan) (sync : Bool) (out : σ → Body) (upd : σ → Body → Option σ)
  | fork (c : Comm)
  | bt (X : Chan) (b : Body) (upd : σ → Body → Option σ)
  | join (c : Comm)

variable {σ : Type}

/-- Sending process of a channel. -/
def Chan.src (X : Chan) : Option Nat := X.c.tasks[X.s]?
/-- Receiving process of a channel. -/
def Chan.dst (X : Chan) : Option Nat := X.c.tasks[X.r]?

/-- State of all processes after an event. -/
def Ev.step (st : Nat → σ) : Ev σ → Option (Nat → σ)
  | .loc p f => (f (st p)).map (update st p)
  | .tr X _ out upd =>
    match X.src, X.dst with
    | some P, some Q => (upd (st Q) (out (st P))).map (update st Q)
    | _, _ => none
  | .bt X b upd =>
    match X.dst with
    | some Q => (upd (st Q) b).map (update st Q)
    | none => none
  | .fork _ => some st
  | .join _ => some st

/-- State of all processes after a sequence of events. -/
def run : List (Ev σ) → (Nat → σ) → Option (Nat → σ)
  | [], st => some st
  | e :: es, st => (e.step st).bind (run es)

/-- A channel between two processes of a communicator of `S`. -/
def Chan.Valid (S : Comm → Prop) (X : Chan) : Prop :=
  S X.c ∧ X.s < X.c.tasks.length ∧ X.r < X.c.tasks.length ∧ X.s ≠ X.r

/-- Sequences of events which make sense: channels exist, and sends in the background
are within `fork` and `join` for the same communicator. -/
def WF (S : Comm → Prop) : Option Comm → List (Ev σ) → Prop
  | none, [] => True
  | none, .loc _ _ :: es => WF S none es
  | none, .tr X _ _ _ :: es => X.Valid S ∧ WF S none es
  | none, .fork c :: es => S c ∧ WF S (some c) es
  | none, _ => False
  | some c, .bt X _ _ :: es => X.Valid S ∧ X.c = c ∧ WF S (some c) es
  | some c, .join d :: es => d = c ∧ WF S none es
  | some _, _ => False

end Laik.Mm
