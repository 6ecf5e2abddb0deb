import Mathlib.Data.List.Nodup
import Mathlib.Tactic.ByContra
/-!
# Processes exchanging messages over FIFO channels

Semantics of processes running programs of simple actions for a reduction.  Each
process has an input buffer, an output buffer (possibly the same memory) and a
temporary buffer with slots.  Values are whole vectors of elements.
-/

namespace Laik

variable {V : Type}

inductive RA
  /-- send input buffer -/
  | send (q : Nat)
  /-- send output buffer -/
  | sendRes (q : Nat)
  /-- receive into slot of temporary buffer -/
  | recvSlot (i q : Nat)
  /-- receive into output buffer -/
  | recvRes (q : Nat)
  /-- receive and store into output buffer (used for input of others) -/
  | recvIn (q : Nat)
  /-- receive and reduce with output buffer -/
  | recvAcc (q : Nat)
  /-- set output buffer to neutral element -/
  | init
  /-- copy input to output -/
  | copyIn
  /-- copy slot to output -/
  | copySlot (i : Nat)
  /-- reduce output with slot -/
  | redSlot (i : Nat)
  /-- store reduction of input and slot in output -/
  | redInSlot (i : Nat)
  /-- store reduction of two slots in output -/
  | redSlots (i j : Nat)
  deriving DecidableEq, Repr

/-- Memory of a process.  With `inPlace`, `frm` and `res` are the same buffer. -/
structure LSt (V : Type) where
  frm : V
  res : V
  slot : Nat → V

structure RedCtx (V : Type) where
  op : V → V → V
  neutral : V
  /-- input and output buffer are the same -/
  inPlace : Nat → Bool

def LSt.setTo (c : RedCtx V) (p : Nat) (s : LSt V) (v : V) : LSt V :=
  { s with res := v, frm := if c.inPlace p then v else s.frm }

def LSt.setSlot (s : LSt V) (i : Nat) (v : V) : LSt V :=
  { s with slot := fun j => if j = i then v else s.slot j }

/-- Partner of a send and value sent. -/
def RA.sends (s : LSt V) : RA → Option (Nat × V)
  | .send q => some (q, s.frm)
  | .sendRes q => some (q, s.res)
  | _ => none

/-- Partner of a receive. -/
def RA.recvs : RA → Option Nat
  | .recvSlot _ q => some q
  | .recvRes q => some q
  | .recvIn q => some q
  | .recvAcc q => some q
  | _ => none

/-- Effect on the memory of process `p`; `v` is the received value. -/
def RA.eff (c : RedCtx V) (p : Nat) (v : V) (s : LSt V) : RA → LSt V
  | .send _ => s
  | .sendRes _ => s
  | .recvSlot i _ => s.setSlot i v
  | .recvRes _ => s.setTo c p v
  | .recvIn _ => s.setTo c p v
  | .recvAcc _ => s.setTo c p (c.op s.res v)
  | .init => s.setTo c p c.neutral
  | .copyIn => s.setTo c p s.frm
  | .copySlot i => s.setTo c p (s.slot i)
  | .redSlot i => s.setTo c p (c.op s.res (s.slot i))
  | .redInSlot i => s.setTo c p (c.op s.frm (s.slot i))
  | .redSlots i j => s.setTo c p (c.op (s.slot i) (s.slot j))

/-- State of all processes and channels. -/
structure NSt (V : Type) where
  rem : Nat → List RA
  loc : Nat → LSt V
  chan : Nat → Nat → List V

def NSt.set (s : NSt V) (p : Nat) (l : List RA) (m : LSt V) (ch : Nat → Nat → List V) : NSt V where
  rem i := if i = p then l else s.rem i
  loc i := if i = p then m else s.loc i
  chan := ch

def setCh (ch : Nat → Nat → List V) (p q : Nat) (l : List V) : Nat → Nat → List V :=
  fun i j => if i = p ∧ j = q then l else ch i j

/-- One process does its next action; messages of a channel arrive in order. -/
inductive NStep (c : RedCtx V) : NSt V → NSt V → Prop
  | send (s : NSt V) (p : Nat) (a : RA) (l : List RA) (q : Nat) (v : V) :
      s.rem p = a :: l → a.sends (s.loc p) = some (q, v) →
      NStep c s (s.set p l (s.loc p) (setCh s.chan p q (s.chan p q ++ [v])))
  | recv (s : NSt V) (p : Nat) (a : RA) (l : List RA) (q : Nat) (v : V) (r : List V) :
      s.rem p = a :: l → a.recvs = some q → s.chan q p = v :: r →
      NStep c s (s.set p l (a.eff c p v (s.loc p)) (setCh s.chan q p r))
  | local (s : NSt V) (p : Nat) (a : RA) (l : List RA) :
      s.rem p = a :: l → a.sends (s.loc p) = none → a.recvs = none →
      NStep c s (s.set p l (a.eff c p (s.loc p).res (s.loc p)) s.chan)

inductive NSteps (c : RedCtx V) : NSt V → NSt V → Prop
  | refl (s : NSt V) : NSteps c s s
  | step {s s' s'' : NSt V} : NSteps c s s' → NStep c s' s'' → NSteps c s s''

def NSt.start (prog : Nat → List RA) (loc : Nat → LSt V) : NSt V :=
  { rem := prog, loc := loc, chan := fun _ _ => [] }

def NSt.done (s : NSt V) : Prop := ∀ p, s.rem p = []

end Laik
