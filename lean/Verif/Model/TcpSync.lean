import Verif.Model.Kvs
import Verif.Model.KvsOps
import Verif.Model.MiniColl
/-!
# Model of the synchronization of key-value stores by the TCP backend based on GLib
(`laik_tcp_sync`, `src/backends/tcp/backend-tcp.c` 811-924)

Programs of one process over the message passing of `src/backends/tcp/minimpi.c`
(`Verif.Model.MiniMpi`), with what is done afterwards as last argument. The functions for
changes and stores are those of `Verif.Model.Kvs` (src/kvs.c).
-/

namespace Laik.Ts

open Laik.Mm

/-- Two numbers of type `int` in memory (little endian), `count`. -/
def countB (n m : Nat) : Body := leN 4 n ++ leN 4 m

/-- An array of `int`. -/
def offB (off : List Nat) : Body := off.flatMap (leN 4)

/-- An array of `char`. -/
def dataB (data : Bytes) : Body := data.map UInt8.ofNat

/-- Numbers of an array of `int`. -/
def unOff : Body → List Nat
  | a :: b :: c :: d :: l => unle [a, b, c, d] :: unOff l
  | _ => []

def unData (b : Body) : Bytes := b.map UInt8.toNat

/-- A failed assert stops the process. -/
def orErr {α : Type} (x : Option α) (k : α → Prog KVS) : Prog KVS :=
  match x with
  | some a => k a
  | none => .err

/-- `MPI_Send` of `body` to rank `dst` with tag 0, src/backends/tcp/minimpi.c 733-754. -/
def sendP (c : Comm) (rank dst : Nat) (body : Body) (k : Prog KVS) : Prog KVS :=
  .send ⟨c, rank, tSendRecv, dst, 0, body⟩ k

/-- `MPI_Recv` of `size` bytes from rank `src` with tag 0, src/backends/tcp/minimpi.c 642-674; more
bytes are an error. Fewer bytes would leave old content in the buffer; they are taken to be an error. -/
def recvP (c : Comm) (rank src size : Nat) (k : Body → Prog KVS) : Prog KVS :=
  .recv ⟨c, rank, tSendRecv, src, 0⟩ fun b => if b.length = size then k b else .err

/-- `MPI_Recv` of `count`, backend-tcp.c 839, 875. Negative numbers are taken to be an error. -/
def recvCount (c : Comm) (rank src : Nat) (k : Nat → Nat → Prog KVS) : Prog KVS :=
  recvP c rank src 8 fun b =>
    if unle (b.take 4) < 2 ^ 31 ∧ unle (b.drop 4) < 2 ^ 31 then k (unle (b.take 4)) (unle (b.drop 4)) else .err

/-- Processes other than 0, receiving, src/backends/tcp/backend-tcp.c 839-857. -/
def clientRecv (c : Comm) (rank : Nat) (s : KVS) (k : KVS → Prog KVS) : Prog KVS :=
  recvCount c rank 0 fun n m =>
    if 0 < n then
      if 0 < m then
        orErr (chEnsureSize s.changes n m) fun ch =>
          recvP c rank 0 (4 * n) fun off => recvP c rank 0 m fun data =>
            orErr ((chSetSize ch (unOff off) (unData data)).bind fun ch => chApply ch { s with changes := ch }) k
      else .err
    else if m = 0 then k s else .err

/-- Processes other than 0, src/backends/tcp/backend-tcp.c 821-858. -/
def clientP (c : Comm) (rank : Nat) (s : KVS) (k : KVS → Prog KVS) : Prog KVS :=
  let off := s.changes.off
  let data := s.changes.data
  if off.length = 0 ∨ off.length % 2 = 1 then
    sendP c rank 0 (countB off.length data.length) <|
      if 0 < off.length then
        if 0 < data.length then
          sendP c rank 0 (offB off) <| sendP c rank 0 (dataB data) <| clientRecv c rank s k
        else .err
      else if data.length = 0 then clientRecv c rank s k else .err
  else .err

/-- Loop of process 0 receiving changes, src/backends/tcp/backend-tcp.c 874-900, for `n` processes
from rank `i`. -/
def gatherP (q : List KEnt → List KEnt) (c : Comm) : (n i : Nat) → (src dst recvd : Changes) →
    (Changes → Prog KVS) → Prog KVS
  | 0, _, _, dst, _, k => k dst
  | n + 1, i, src, dst, recvd, k =>
    recvCount c 0 i fun n0 n1 =>
      orErr ((chSetSize recvd [] []).bind fun r => chEnsureSize r n0 n1) fun recvd =>
        if n0 = 0 then
          if n1 = 0 then gatherP q c n (i + 1) src dst recvd k else .err
        else if 0 < n1 then
          recvP c 0 i (4 * n0) fun off => recvP c 0 i n1 fun data =>
            orErr ((chSetSize recvd (unOff off) (unData data)).bind fun r => chSort q r) fun recvd =>
              orErr (chMerge src dst recvd) fun m => gatherP q c n (i + 1) dst m recvd k
        else .err

/-- Loop of process 0 sending the result, src/backends/tcp/backend-tcp.c 906-917, for `n` processes
from rank `i`. -/
def spreadP (c : Comm) (off : List Nat) (data : Bytes) : (n i : Nat) → Prog KVS → Prog KVS
  | 0, _, k => k
  | n + 1, i, k =>
    sendP c 0 i (countB off.length data.length) <|
      if off.length = 0 then spreadP c off data n (i + 1) k
      else sendP c 0 i (offB off) <| sendP c 0 i (dataB data) <| spreadP c off data n (i + 1) k

/-- Process 0, src/backends/tcp/backend-tcp.c 860-924. -/
def masterP (q : List KEnt → List KEnt) (c : Comm) (s : KVS) (k : KVS → Prog KVS) : Prog KVS :=
  orErr (chSort q s.changes) fun own =>
    gatherP q c (c.tasks.length - 1) 1 chInit own chInit fun dst =>
      if dst.off.length < dst.data.length then
        spreadP c dst.off dst.data (c.tasks.length - 1) 1 <| orErr (chApply dst s) k
      else .err

/-- `laik_kvs_sync`, src/kvs.c 445-465, with this backend, by the process with the given
rank in the communicator `c` for all processes. -/
def syncP (q : List KEnt → List KEnt) (c : Comm) (rank : Nat) (s : KVS) (k : KVS → Prog KVS) : Prog KVS :=
  let s := { s with inSync := true }
  if 0 < rank then clientP c rank s fun s => orErr (syncEnd q s) k
  else masterP q c s fun s => orErr (syncEnd q s) k

/-- Several rounds: in each, the process sets values, then there is a synchronization. -/
def roundsP (q : List KEnt → List KEnt) (c : Comm) (rank : Nat) : List (List (Bytes × Bytes)) → KVS → Prog KVS
  | [], s => .ret s
  | h :: hs, s => orErr (setAll h s) fun s => syncP q c rank s (roundsP q c rank hs)

/-- All processes: `rs` gives for each round and rank the values to set. -/
def worldP (q : List KEnt → List KEnt) (c : Comm) (rs : List (List (List (Bytes × Bytes)))) (p : Nat) : Prog KVS :=
  if p ∈ c.tasks then roundsP q c (c.tasks.idxOf p) (rs.map fun hs => hs[c.tasks.idxOf p]?.getD []) kvsNew else .ret kvsNew

end Laik.Ts
