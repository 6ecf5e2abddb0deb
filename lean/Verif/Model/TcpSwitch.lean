import Verif.Model.MiniColl
import Verif.Model.MpiSetup
/-!
# Model of the execution of action sequences by the TCP backend based on GLib
(`laik_tcp_exec`, `src/backends/tcp/backend-tcp.c`)

The preparation (`laik_tcp_prepare`, 706-769) does the same steps as that of the MPI backend
without asynchronous communication (`Mp.PCtx.Prepared`), with `tcp_reduce` for `mpi_reduce`.
-/

namespace Laik.Tc

open Laik.Mm Laik.Mp

/-- Memory of a process. -/
abbrev Mem := Nat → UInt8

/-- `getMPIOp`, src/backends/tcp/backend-tcp.c 276-290, with numbers from
include/laik/space.h 101-109; `none`: failed assert. -/
def opOf : Nat → Option Mm.MOp
  | 1 => some .sum
  | 2 => some .prod
  | 3 => some .min
  | 4 => some .max
  | 5 => some .land
  | 6 => some .lor
  | _ => none

/-- Root of a reduction: copy of the input, src/backends/tcp/minimpi.c 693-695. `MPI_IN_PLACE`
is used if both buffers are the same, backend-tcp.c 352-356, 366-370. The `memcpy` is taken to
work for buffers which overlap. -/
def redInit (s d len : Nat) (m : Mem) : Mem := if s = d then m else writeMem m d (readMem m s len)

/-- What the root of a reduction does with a message, minimpi.c 708-717. -/
def redGot (F : Flt) (ty : MTy) (op : Mm.MOp) (d n : Nat) (m : Mem) (b : Body) : Option Mem :=
  if b.length ≠ n * ty.bytes then none
  else (Mm.combine F ty op n (readMem m d (n * ty.bytes)) b).map (writeMem m d)

/-- `laik_tcp_minimpi_reduce`, src/backends/tcp/minimpi.c 677-730, as `Mm.reduceP`, with
addresses in memory. Overflow of `int` in counts is not modelled. -/
def redP (F : Flt) (ty : MTy) (c : Comm) (rank root : Nat) (op : Mm.MOp) (s d n : Nat) (m : Mem)
    (k : Mem → Mm.Prog Mem) : Mm.Prog Mem :=
  if root = rank then
    recvAll c root tReduce (redGot F ty op d n) (others c.tasks.length rank)
      (redInit s d (n * ty.bytes) m) k
  else .send ⟨c, rank, tReduce, root, 0, readMem m s (n * ty.bytes)⟩ (k m)

/-- What `laik_tcp_minimpi_bcast` does with a message, minimpi.c 341-346. -/
def bcGot (len d : Nat) (m : Mem) (b : Body) : Option Mem :=
  if b.length ≠ len then none else some (writeMem m d b)

/-- `laik_tcp_minimpi_bcast`, src/backends/tcp/minimpi.c 308-350, as `Mm.bcastP`. -/
def bcP (c : Comm) (rank root len d : Nat) (m : Mem) (k : Mem → Mm.Prog Mem) : Mm.Prog Mem :=
  if rank = root then
    sendAll c root tBroadcast (readMem m d len) (others c.tasks.length rank) (k m)
  else
    .recv ⟨c, rank, tBroadcast, root, 0⟩ fun b =>
      match bcGot len d m b with
      | some m' => k m'
      | none => .err

/-- `laik_mpi_exec_reduce`, src/backends/tcp/backend-tcp.c 341-378; `MPI_Allreduce` is
minimpi.c 228-244. -/
def reduceM (F : Flt) (ty : MTy) (c : Comm) (rank : Nat) (root : Int) (op s d n : Nat) (m : Mem)
    (k : Mem → Mm.Prog Mem) : Mm.Prog Mem :=
  match opOf op with
  | none => .err
  | some o =>
    if root = -1 then
      redP F ty c rank 0 o s d n m fun m => bcP c rank 0 (n * ty.bytes) d m k
    else redP F ty c rank root.toNat o s d n m k

/-- What a receive does with a message: check of the size, minimpi.c 665-671 and
backend-tcp.c 587-589, 601-603, 614-616. -/
def recvM (d len : Nat) (m : Mem) (b : Body) : Option Mem :=
  if b.length ≠ len then none else some (writeMem m d b)

/-- `laik_tcp_exec`, src/backends/tcp/backend-tcp.c 499-703, for the actions after
preparation, then local copies (`copyMaps`), by the process with the given rank. `ty` is the
type of the container (`getMPIDataType`, 259-273), the tag is 1. `GroupReduce` is not
modelled (an error here), there is none after `laik_aseq_splitReduce`. Action `RBufRecv` (593-604)
checks a wrong field of the action; it is replaced by `BufRecv` in `laik_aseq_allocBuffer`. -/
def tcpP (F : Flt) (ty : MTy) (c : Comm) (rank : Nat) : List (CBody UInt8) → Mem → Mm.Prog Mem
  | [], m => .ret m
  | .comm (.send q) s _ n :: l, m =>
    .send ⟨c, rank, tSendRecv, q, 1, readMem m s (n * ty.bytes)⟩ (tcpP F ty c rank l m)
  | .comm (.recv q) _ d n :: l, m =>
    .recv ⟨c, rank, tSendRecv, q, 1⟩ fun b =>
      match recvM d (n * ty.bytes) m b with
      | some m' => tcpP F ty c rank l m'
      | none => .err
  | .comm (.red root op) s d n :: l, m => reduceM F ty c rank root op s d n m (tcpP F ty c rank l)
  | .comm (.gred _ _ _) _ _ _ :: _, _ => .err
  | .other op :: l, m => tcpP F ty c rank l (op.run (MSt.ofMem m)).mem

/-- All processes: those of the communicator run `prog` of their rank. -/
def switchP (F : Flt) (ty : MTy) (c : Comm) (prog : Nat → List (CBody UInt8)) (p : Nat) (m : Mem) : Mm.Prog Mem :=
  if p ∈ c.tasks then tcpP F ty c (c.tasks.idxOf p) (prog (c.tasks.idxOf p)) m else .ret m

end Laik.Tc
