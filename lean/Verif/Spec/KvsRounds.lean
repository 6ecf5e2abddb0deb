/-!
# Specification: key-value stores synchronized by all processes

Keys and values are byte lists.  Independent of the model.
-/

namespace Laik.Ks

/-- A synchronization of a store; before, each process did settings of keys to
strings (without the terminating 0), in the order given. -/
structure SRound where
  store : Nat
  upd : Nat → List (List Nat × List Nat)

/-- The string last set for a key. -/
def lastOf (h : List (List Nat × List Nat)) (k : List Nat) : Option (List Nat) :=
  (h.reverse.find? (fun x => x.1 = k)).map (·.2)

/-- The string set in a round by any of `n` processes. -/
def setIn (n : Nat) (r : SRound) (k : List Nat) : Option (List Nat) :=
  (List.range n).findSome? (fun p => lastOf (r.upd p) k)

/-- Value of a key in a store after rounds; a string value includes the
terminating 0. -/
def valueAfter (n : Nat) (rs : List SRound) (i : Nat) (k : List Nat) : Option (List Nat) :=
  rs.foldl (fun old r =>
    if r.store = i then (match setIn n r k with | some v => some (v ++ [0]) | none => old) else old) none

end Laik.Ks
