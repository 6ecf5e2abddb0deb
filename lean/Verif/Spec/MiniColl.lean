import Verif.Spec.MiniMpi
/-!
# What collective operations have to do (specification for C54)

The effect of each operation on the memory of all processes, without any messages.
-/

namespace Laik.Mm

open Function

/-- A communicator as seen by a process: processes, own rank, generation. -/
structure Got where
  tasks : List Nat
  rank : Nat
  gen : Nat
  deriving DecidableEq, Repr

/-- Data of one process when communicators are split. -/
structure Split where
  color : Int
  hint : Int
  rank : Nat
  deriving DecidableEq, Repr

/-- State of a process: its buffers, data in use while splitting, and communicators made. -/
structure PS where
  mem : Nat → Body
  splits : List Split
  comms : List Got

/-- Write to the begin of a buffer. -/
def PS.put (s : PS) (x : Nat) (b : Body) : PS :=
  { s with mem := update s.mem x (b ++ (s.mem x).drop b.length) }

inductive MTy
  | double | float | int64 | int32 | int8 | uint64 | uint32 | uint8
  deriving DecidableEq, Repr

inductive MOp
  | sum | prod | min | max | land | lor
  deriving DecidableEq, Repr

def MTy.bytes : MTy → Nat
  | .double => 8 | .float => 4 | .int64 => 8 | .int32 => 4 | .int8 => 1
  | .uint64 => 8 | .uint32 => 4 | .uint8 => 1

/-- Number in `n` bytes, lowest first. -/
def leN : Nat → Nat → Body
  | 0, _ => []
  | n + 1, v => UInt8.ofNat (v % 256) :: leN n (v / 256)

def unle : Body → Nat
  | [] => 0
  | b :: l => b.toNat + 256 * unle l

/-- Addition of floating point numbers, on bit patterns; nothing is assumed. -/
structure Flt where
  add64 : Nat → Nat → Nat
  add32 : Nat → Nat → Nat

/-- Addition of two elements. -/
def addEl (F : Flt) (ty : MTy) (a b : Body) : Body :=
  match ty with
  | .double => leN 8 (F.add64 (unle a) (unle b))
  | .float => leN 4 (F.add32 (unle a) (unle b))
  | ty => leN ty.bytes (unle a + unle b)

/-- Addition of `n` elements. -/
def addVec (F : Flt) (ty : MTy) : Nat → Body → Body → Body
  | 0, _, _ => []
  | n + 1, a, b => addEl F ty (a.take ty.bytes) (b.take ty.bytes) ++
      addVec F ty n (a.drop ty.bytes) (b.drop ty.bytes)

/-- Operations, called by all processes of the communicator with the same arguments.
Buffers are given by numbers. `elements` may not be negative.
`reduce`: `inp = none` is `MPI_IN_PLACE`. `p2p`: a send by rank `s` of `size` bytes in
buffer `x`, and a receive by rank `r` into buffer `y` with `cap` bytes. `split`: colour and
hint for each rank. -/
inductive Call
  | bcast (c : Comm) (x elements : Nat) (ty : MTy) (root : Nat)
  | reduce (c : Comm) (inp : Option Nat) (out elements : Nat) (ty : MTy) (op : MOp) (root : Nat)
  | allreduce (c : Comm) (inp : Option Nat) (out elements : Nat) (ty : MTy) (op : MOp)
  | barrier (c : Comm)
  | p2p (c : Comm) (s r tag x size y cap : Nat)
  | split (c : Comm) (async : Bool) (color hint : Nat → Int)

def Call.comm : Call → Comm
  | .bcast c _ _ _ _ => c
  | .reduce c _ _ _ _ _ _ => c
  | .allreduce c _ _ _ _ _ => c
  | .barrier c => c
  | .p2p c _ _ _ _ _ _ _ => c
  | .split c _ _ _ => c

/-- Ranks other than `r`. -/
def others (n r : Nat) : List Nat := (List.range n).filter (· ≠ r)

/-- All processes get the buffer of the root; `none` if a buffer is too small. -/
def evalBcast (c : Comm) (x size root : Nat) (st : Nat → PS) : Option (Nat → PS) :=
  match c.tasks[root]? with
  | none => none
  | some R =>
    if ∀ p ∈ c.tasks, size ≤ ((st p).mem x).length then
      some fun p => if p ∈ c.tasks ∧ p ≠ R then (st p).put x (((st R).mem x).take size) else st p
    else none

/-- The root gets the sum over all ranks: own data first, then ascending. -/
def evalReduce (F : Flt) (c : Comm) (inp : Option Nat) (out n : Nat) (ty : MTy) (op : MOp)
    (root : Nat) (st : Nat → PS) : Option (Nat → PS) :=
  match c.tasks[root]? with
  | none => none
  | some R =>
    let data := fun p => ((st p).mem (inp.getD out)).take (n * ty.bytes)
    if n * ty.bytes ≤ ((st R).mem out).length ∧
        ∀ p ∈ c.tasks, n * ty.bytes ≤ ((st p).mem (inp.getD out)).length then
      if op = .sum ∨ c.tasks.length ≤ 1 then
        some (update st R ((st R).put out
          ((c.tasks.eraseIdx root).foldl (fun a p => addVec F ty n a (data p)) (data R))))
      else none
    else none

/-- Ranks of a colour, by hint, ranks with the same hint ascending; as the standard of MPI
says. -/
def colorGroup (n : Nat) (color hint : Nat → Int) (col : Int) : List Nat :=
  ((List.range n).filter fun r => color r = col).mergeSort fun a b => decide (hint a ≤ hint b)

/-- Result of a split for rank `r`. Who has no colour (-1) gets a communicator with only
itself. -/
def splitFor (c : Comm) (color hint : Nat → Int) (r : Nat) : Got :=
  if color r = -1 then ⟨[c.tasks[r]?.getD 0], 0, c.gen + 1⟩
  else
    let l := colorGroup c.tasks.length color hint (color r)
    ⟨l.map fun q => c.tasks[q]?.getD 0, l.idxOf r, c.gen + 1⟩

/-- Effect of an operation. `none`: error, or memory used outside of buffers. -/
def Call.eval (F : Flt) (st : Nat → PS) : Call → Option (Nat → PS)
  | .bcast c x n ty root => evalBcast c x (n * ty.bytes) root st
  | .reduce c inp out n ty op root => evalReduce F c inp out n ty op root st
  | .allreduce c inp out n ty op =>
    (evalReduce F c inp out n ty op 0 st).bind (evalBcast c out (n * ty.bytes) 0)
  | .barrier _ => some st
  | .p2p c s r _ x size y cap =>
    match c.tasks[s]?, c.tasks[r]? with
    | some P, some Q =>
      if size ≤ ((st P).mem x).length ∧ size ≤ cap ∧ size ≤ ((st Q).mem y).length then
        some (update st Q ((st Q).put y (((st P).mem x).take size)))
      else none
    | _, _ => none
  | .split c _ color hint =>
    some fun p =>
      if p ∈ c.tasks then
        { st p with splits := [], comms := (st p).comms ++ [splitFor c color hint (c.tasks.idxOf p)] }
      else st p

/-- Effect of a sequence of operations. -/
def evalAll (F : Flt) : List Call → (Nat → PS) → Option (Nat → PS)
  | [], st => some st
  | d :: ds, st => (d.eval F st).bind (evalAll F ds)

/-- Arguments make sense: ranks exist; ranks of the same colour have different hints;
colours and hints are of type int, and hints are not too far apart. -/
def Call.OK (S : Comm → Prop) : Call → Prop
  | .bcast c _ _ _ root => S c ∧ root < c.tasks.length
  | .reduce c _ _ _ _ _ root => S c ∧ root < c.tasks.length
  | .allreduce c _ _ _ _ _ => S c ∧ 0 < c.tasks.length
  | .barrier c => S c
  | .p2p c s r _ _ _ _ _ => S c ∧ s < c.tasks.length ∧ r < c.tasks.length ∧ s ≠ r
  | .split c _ color hint => S c ∧ c.tasks.length < 2 ^ 64 ∧
      (∀ r, r < c.tasks.length → -2 ^ 31 ≤ color r ∧ color r < 2 ^ 31 ∧ -2 ^ 30 ≤ hint r ∧
        hint r < 2 ^ 30) ∧
      ∀ q r, q < c.tasks.length → r < c.tasks.length → color q = color r → color q ≠ -1 →
        hint q = hint r → q = r

/-- Number in a buffer with elements of `w` bytes. -/
def elem (w : Nat) (b : Body) (j : Nat) : Nat := unle ((b.drop (j * w)).take w)

/-- A program which only waits for rank 0 or sends from rank 0, with messages of kind `ty` on
`c`, and then ends with `x`: all others entered the barrier. -/
inductive Leaving (c : Comm) (ty : Nat) (x : PS) : Prog PS → Prop
  | done : Leaving c ty x (.ret x)
  | wait {m : Rcv} {k : Body → Prog PS} (h : m.c = c ∧ m.ty = ty ∧ m.src = 0)
      (hk : ∀ b, Leaving c ty x (k b)) : Leaving c ty x (.recv m k)
  | pong {m : Snd} {k : Prog PS} (h : m.c = c ∧ m.ty = ty ∧ m.rank = 0) (hk : Leaving c ty x k) :
      Leaving c ty x (.ssend m k)

end Laik.Mm
