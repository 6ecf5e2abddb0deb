import Mathlib.Logic.ExistsUnique
/-!
# Specification of a key-value store: a map from keys to values

Keys and values are byte lists.  Independent of the model.
-/

namespace Laik

/-- Operations of a process on its store.  `sets` is given a string without the
terminating 0, which is part of the stored value. -/
inductive KOp
  | set (key value : List Nat)
  | sets (key str : List Nat)
  | remove (key : List Nat)
  | clean
  | sort
  deriving DecidableEq, Repr

/-- Map after one operation. -/
def kvStep (m : List Nat → Option (List Nat)) : KOp → List Nat → Option (List Nat)
  | .set k v => fun x => if x = k then some v else m x
  | .sets k v => fun x => if x = k then some (v ++ [0]) else m x
  | .remove k => fun x => if x = k then none else m x
  | .clean => fun _ => none
  | .sort => m

/-- Map after operations on the empty map. -/
def kvSpec (ops : List KOp) : List Nat → Option (List Nat) := ops.foldl kvStep (fun _ => none)

/-- Different values such that none is a prefix of the other. -/
def Unrelated (v w : List Nat) : Prop := ¬ v <+: w ∧ ¬ w <+: v

end Laik
