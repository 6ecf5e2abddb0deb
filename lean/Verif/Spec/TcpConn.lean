/-!
# Messages between processes which open connections when needed

What is to be received, by the order of events only: no connections, no tables.
-/

namespace Laik.Co

/-- Events of a run.  `send i j m`: process `i` sends message `m` to process `j`;
`accept c`: the process called by connection `c` accepts it; `read c b`: the process at
end `b` of connection `c` (`false`: the one which opened it) handles its next input;
`exit i`: process `i` ends. -/
inductive Ev
  | send (i j m : Nat)
  | accept (c : Nat)
  | read (c : Nat) (b : Bool)
  | exit (i : Nat)
  deriving DecidableEq

/-- Messages sent by `i` to `j` in a run, in order; none after the end of `i`. -/
def sends : List Ev → Nat → Nat → List Nat
  | [], _, _ => []
  | .send a b m :: t, i, j => if a = i ∧ b = j then m :: sends t i j else sends t i j
  | .exit a :: t, i, j => if a = i then [] else sends t i j
  | .accept _ :: t, i, j => sends t i j
  | .read _ _ :: t, i, j => sends t i j

end Laik.Co
