/-!
# What starting together means

Specification of the startup of the TCP2 backend (property C72), independent of
the protocol: a number of processes of which one is the master, each with a
location, a host name, a port and a flag saying whether it takes binary data.
The processes get numbers (location IDs) in the order in which the master first
reads something from them; the master has number 0.
-/

namespace Laik.Su

/-- What a process says about itself. -/
structure Who where
  loc : List Char
  host : List Char
  port : Nat
  bin : Bool
deriving DecidableEq

/-- The thing that can happen next: the master reads the next message of process
`p`, the master's own program goes on, or process `p` reads its next message. -/
inductive Ev where
  | master (p : Nat)
  | main
  | peer (p : Nat)
deriving DecidableEq

/-- The processes in the order in which the master first read from them. -/
def heard : List Ev → List Nat → List Nat
  | [], l => l
  | .master p :: es, l => heard es (if p ∈ l then l else l ++ [p])
  | _ :: es, l => heard es l

/-- The other members of a world of `N` processes: the first `N - 1` heard. -/
def joined (N : Nat) (es : List Ev) : List Nat := (heard es []).take (N - 1)

/-- A location with its number in front: `L<number>:<location>`. -/
def tag (lid : Nat) (w : Who) : Who :=
  { w with loc := 'L' :: (Nat.toDigits 10 lid ++ ':' :: w.loc) }

/-- The common table: number 0 is the master, the others follow in their order.
Of their locations the first 30 characters are kept, all else is kept as said. -/
def entry (mw : Who) (who : Nat → Who) (js : List Nat) : Nat → Option Who
  | 0 => some (tag 0 mw)
  | i + 1 => js[i]?.map fun p => tag (i + 1) { who p with loc := (who p).loc.take 30 }

end Laik.Su
