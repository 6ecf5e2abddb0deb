import Verif.Model.ActionSort
/-!
# Execution of programs consisting of blocking sends, receives and collectives

Small-step semantics used to state that executing action sequences never gets
stuck.  A program is a list of (kind, content); for a send and a receive the
content names the message.
-/

namespace Laik

variable {α : Type}

abbrev Prog (α : Type) := List (AKind × α)

/-- Forget the round of an action: only the order matters for execution. -/
def Act.er (a : Act α) : AKind × α := (a.kind, a.content)

/-- What is left to do in each process, and sent but not yet received messages. -/
structure EState (α : Type) where
  rem : Nat → Prog α
  chan : Nat → Nat → List α

/-- Replace the program of process `p`. -/
def setRem (f : Nat → Prog α) (p : Nat) (v : Prog α) : Nat → Prog α :=
  fun q => if q = p then v else f q

/-- Replace the messages on the way from `p` to `q`. -/
def setChan (f : Nat → Nat → List α) (p q : Nat) (v : List α) : Nat → Nat → List α :=
  fun a b => if a = p ∧ b = q then v else f a b

/-- All processes about to do collective `c` do it. -/
def popColl (f : Nat → Prog α) (c : Nat) : Nat → Prog α :=
  fun p => if (f p).head?.map (·.1) = some (.coll c) then (f p).tail else f p

/-- Steps that never need buffer space in the network. -/
inductive RStep : EState α → EState α → Prop
  /-- a local action can always be done -/
  | loc (st : EState α) (p : Nat) (x : α) (t : Prog α) (h : st.rem p = (.other, x) :: t) :
      RStep st { st with rem := setRem st.rem p t }
  /-- a message on the way is received -/
  | recv (st : EState α) (p q : Nat) (x y : α) (t : Prog α) (c : List α)
      (hq : st.rem q = (.recv p, y) :: t) (hc : st.chan p q = x :: c) :
      RStep st { rem := setRem st.rem q t, chan := setChan st.chan p q c }
  /-- sender and receiver meet, no earlier message is on the way -/
  | meet (st : EState α) (p q : Nat) (x y : α) (t t' : Prog α) (hne : p ≠ q)
      (hp : st.rem p = (.send q, x) :: t) (hq : st.rem q = (.recv p, y) :: t') (hc : st.chan p q = []) :
      RStep st { st with rem := setRem (setRem st.rem p t) q t' }
  /-- all processes which still have to do collective `c` are about to do it -/
  | coll (st : EState α) (c : Nat)
      (hex : ∃ p x t, st.rem p = (.coll c, x) :: t)
      (hall : ∀ p x, (AKind.coll c, x) ∈ st.rem p → ∃ y t, st.rem p = (.coll c, y) :: t) :
      RStep st { st with rem := popColl st.rem c }

/-- All steps: a send may also complete by buffering the message. -/
inductive EStep : EState α → EState α → Prop
  | sync (st st' : EState α) (h : RStep st st') : EStep st st'
  | buf (st : EState α) (p q : Nat) (x : α) (t : Prog α) (h : st.rem p = (.send q, x) :: t) :
      EStep st { rem := setRem st.rem p t, chan := setChan st.chan p q (st.chan p q ++ [x]) }

/-- Executions with their number of steps. -/
inductive ESteps : Nat → EState α → EState α → Prop
  | nil (st : EState α) : ESteps 0 st st
  | snoc {k : Nat} {a b c : EState α} (h : ESteps k a b) (hs : EStep b c) : ESteps (k + 1) a c

/-- Nothing left to do and no message left over. -/
def EDone (st : EState α) : Prop := (∀ p, st.rem p = []) ∧ ∀ p q, st.chan p q = []

/-- Start of an execution. -/
def EState.start (prog : Nat → Prog α) : EState α := { rem := prog, chan := fun _ _ => [] }

end Laik
