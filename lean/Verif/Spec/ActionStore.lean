/-!
# Action sequences as lists

What the storage of action sequences has to behave like: two lists of actions, the
active sequence and the one which is being built.
-/

namespace Laik.As

/-- An action: type, round, transition context, mark, and the bytes of the further
parameters. -/
structure Act where
  type : Nat
  round : Nat
  tid : Nat
  mark : Bool
  par : List Nat
  deriving DecidableEq, Repr

/-- Values which fit into the header. -/
def Act.Fits (a : Act) : Prop := a.type < 256 ∧ a.par.length + 4 < 256 ∧ a.round < 255 ∧ a.tid < 128

instance (a : Act) : Decidable a.Fits := by unfold Act.Fits; infer_instance

/-- Active sequence and new sequence. -/
structure Lists where
  act : List Act
  new : List Act
  deriving DecidableEq, Repr

/-- Number of rounds: all rounds of actions are smaller, and it is the smallest such
number. -/
def IsRounds (l : List Act) (n : Nat) : Prop := (∀ a ∈ l, a.round < n) ∧ ∀ m, (∀ a ∈ l, a.round < m) → n ≤ m

/-- What is done with action sequences: append a new action; append action `k` of the
active sequence, with another round if given; change type, mark and parameters of
action `k` of the active sequence; make the new sequence active; discard the new
sequence; free its space. -/
inductive Op
  | add (type round tid : Nat) (par : List Nat)
  | copy (k : Nat) (round : Option Nat)
  | modify (k type : Nat) (mark : Bool) (par : List Nat)
  | activate
  | discard
  | freeTemp

/-- Expected result; `none`: not allowed.  Actions of type 2 (`LAIK_AT_Nop`, include/laik/action.h 60) are not
copied. -/
def Lists.step (s : Lists) : Op → Option Lists
  | .add t r i p => if (⟨t, r, i, false, p⟩ : Act).Fits then some { s with new := s.new ++ [⟨t, r, i, false, p⟩] } else none
  | .copy k r =>
    match s.act[k]? with
    | none => none
    | some a =>
      if a.type = 2 then some s
      else if r.getD a.round < 255 then some { s with new := s.new ++ [{ a with round := r.getD a.round, mark := false }] } else none
  | .modify k t m p =>
    match s.act[k]? with
    | none => none
    | some a => if t < 256 ∧ p.length = a.par.length then some { s with act := s.act.set k { a with type := t, mark := m, par := p } } else none
  | .activate => some ⟨s.new, []⟩
  | .discard => some { s with new := [] }
  | .freeTemp => if s.new = [] then some s else none

def Lists.run : Lists → List Op → Option Lists
  | s, [] => some s
  | s, o :: os => (s.step o).bind fun s' => s'.run os

end Laik.As
