import Verif.Spec.MiniColl
import Verif.Model.Choreo
/-!
# Model of collective operations of the TCP backend based on GLib
(`src/backends/tcp/minimpi.c`)

Programs of one process, with what is done afterwards as last argument.
-/

namespace Laik.Mm

open Function

/-- Kinds of messages, src/backends/tcp/minimpi.c 48-54. -/
def tBarrier : Nat := 0xaa
def tBroadcast : Nat := 0xbb
def tReduce : Nat := 0xcc
def tSendRecv : Nat := 0xdd
def tSplit : Nat := 0xee

/-- A loop of `laik_tcp_messenger_push` to some ranks. -/
def sendAll {σ : Type} (c : Comm) (rank ty : Nat) (body : Body) : List Nat → Prog σ → Prog σ
  | [], k => k
  | r :: rs, k => .send ⟨c, rank, ty, r, 0, body⟩ (sendAll c rank ty body rs k)

/-- A loop of `laik_tcp_messenger_send` to some ranks. -/
def ssendAll {σ : Type} (c : Comm) (rank ty : Nat) (body : Body) : List Nat → Prog σ → Prog σ
  | [], k => k
  | r :: rs, k => .ssend ⟨c, rank, ty, r, 0, body⟩ (ssendAll c rank ty body rs k)

/-- A loop of `laik_tcp_messenger_get` from some ranks. -/
def recvAll {σ : Type} (c : Comm) (rank ty : Nat) (f : σ → Body → Option σ) :
    List Nat → σ → (σ → Prog σ) → Prog σ
  | [], s, k => k s
  | r :: rs, s, k => .recv ⟨c, rank, ty, r, 0⟩ fun b =>
      match f s b with
      | some s' => recvAll c rank ty f rs s' k
      | none => .err

/-- What `laik_tcp_minimpi_bcast` does with a message, minimpi.c 341-346. -/
def bcastGot (size x : Nat) (s : PS) (b : Body) : Option PS :=
  if b.length ≠ size then none else some (s.put x b)

/-- `laik_tcp_minimpi_bcast`, src/backends/tcp/minimpi.c 308-350. -/
def bcastP (c : Comm) (rank x size root : Nat) (s : PS) (k : PS → Prog PS) : Prog PS :=
  if rank = root then
    sendAll c root tBroadcast ((s.mem x).take size) (others c.tasks.length rank) (k s)
  else
    .recv ⟨c, rank, tBroadcast, root, 0⟩ fun b =>
      match bcastGot size x s b with
      | some s' => k s'
      | none => .err

/-- `laik_tcp_minimpi_combine`, src/backends/tcp/minimpi.c 163-202; `none`: an error.
Overflow of signed numbers is taken to wrap. -/
def combine (F : Flt) (ty : MTy) (op : MOp) (n : Nat) (buffer data : Body) : Option Body :=
  match op with
  | .sum => some (addVec F ty n buffer data)
  | _ => none

/-- Root of a reduction: copy of the input, minimpi.c 693-695. -/
def reduceInit (inp : Option Nat) (out size : Nat) (s : PS) : PS :=
  match inp with
  | some x => s.put out ((s.mem x).take size)
  | none => s

/-- What the root of a reduction does with a message, minimpi.c 708-717. -/
def reduceGot (F : Flt) (ty : MTy) (op : MOp) (out n : Nat) (s : PS) (b : Body) : Option PS :=
  if b.length ≠ n * ty.bytes then none
  else (combine F ty op n ((s.mem out).take (n * ty.bytes)) b).map (s.put out)

/-- `laik_tcp_minimpi_reduce`, src/backends/tcp/minimpi.c 677-730. -/
def reduceP (F : Flt) (c : Comm) (rank : Nat) (inp : Option Nat) (out n : Nat) (ty : MTy) (op : MOp)
    (root : Nat) (s : PS) (k : PS → Prog PS) : Prog PS :=
  if root = rank then
    recvAll c root tReduce (reduceGot F ty op out n) (others c.tasks.length rank)
      (reduceInit inp out (n * ty.bytes) s) k
  else
    .send ⟨c, rank, tReduce, root, 0, (s.mem (inp.getD out)).take (n * ty.bytes)⟩ (k s)

/-- `laik_tcp_minimpi_allreduce`, src/backends/tcp/minimpi.c 228-244. -/
def allreduceP (F : Flt) (c : Comm) (rank : Nat) (inp : Option Nat) (out n : Nat) (ty : MTy) (op : MOp)
    (s : PS) (k : PS → Prog PS) : Prog PS :=
  reduceP F c rank inp out n ty op 0 s fun s => bcastP c rank out (n * ty.bytes) 0 s k

/-- `laik_tcp_minimpi_barrier`, src/backends/tcp/minimpi.c 247-305. -/
def barrierP (c : Comm) (rank : Nat) (s : PS) (k : PS → Prog PS) : Prog PS :=
  if rank = 0 then
    recvAll c 0 tBarrier (fun s _ => some s) (others c.tasks.length 0) s fun s =>
      ssendAll c 0 tBarrier [] (others c.tasks.length 0) (k s)
  else
    .send ⟨c, rank, tBarrier, 0, 0, []⟩ (.recv ⟨c, rank, tBarrier, 0, 0⟩ fun _ => k s)

/-- What `laik_tcp_minimpi_recv` does with a message, minimpi.c 665-671. -/
def recvGot (y cap : Nat) (s : PS) (b : Body) : Option PS :=
  if b.length > cap then none else some (s.put y b)

/-- `laik_tcp_minimpi_send` (src/backends/tcp/minimpi.c 733-754) by rank `s`,
`laik_tcp_minimpi_recv` (642-674) by rank `r`. The count in the status is not modelled. -/
def p2pP (c : Comm) (rank sd r tag x size y cap : Nat) (s : PS) (k : PS → Prog PS) : Prog PS :=
  if rank = sd then .send ⟨c, sd, tSendRecv, r, tag, (s.mem x).take size⟩ (k s)
  else if rank = r then
    .recv ⟨c, r, tSendRecv, sd, tag⟩ fun b =>
      match recvGot y cap s b with
      | some s' => k s'
      | none => .err
  else k s

/-- A number of type int64_t in memory. -/
def le64 (v : Int) : Body := leN 8 (v % 2 ^ 64).toNat

def unle64 (b : Body) : Int := Int.bmod (unle b) (2 ^ 64)

/-- `Laik_Tcp_Split` in memory, src/backends/tcp/minimpi.c 42-46, 389-396. -/
def Split.bytes (x : Split) : Body := le64 x.color ++ le64 x.hint ++ leN 8 x.rank

def unsplit (b : Body) : Split :=
  ⟨unle64 (b.take 8), unle64 ((b.drop 8).take 8), unle (b.drop 16)⟩

/-- Not after: `laik_tcp_split_compare` is not positive, minimpi.c 138-143: the
difference of 64 bit is converted to int. -/
def splitLe (a b : Split) : Bool := Int.bmod (a.hint - b.hint) (2 ^ 32) ≤ 0

/-- Insertion into a sorted list. -/
def ins {α : Type} (le : α → α → Bool) (x : α) : List α → List α
  | [] => [x]
  | y :: l => if le x y then x :: y :: l else y :: ins le x l

/-- `g_array_sort` (which is stable). If the comparison is not an order, glib may give
another permutation. -/
def isort {α : Type} (le : α → α → Bool) : List α → List α
  | [] => []
  | x :: l => ins le x (isort le l)

/-- The loop over sorted entries, src/backends/tcp/minimpi.c 479-493: tasks and own rank. -/
def splitLoop (c : Comm) (rank : Nat) (color : Int) : List Split → List Nat → Option Nat →
    List Nat × Option Nat
  | [], tasks, r => (tasks, r)
  | x :: l, tasks, r =>
    splitLoop c rank color l
      (if x.rank = rank ∨ (x.color = color ∧ x.color ≠ -1) then tasks ++ [c.tasks[x.rank]?.getD 0]
        else tasks)
      (if x.rank = rank then some tasks.length else r)

/-- End of `laik_tcp_minimpi_comm_split`, src/backends/tcp/minimpi.c 470-499. -/
def splitEnd (c : Comm) (rank : Nat) (color : Int) (s : PS) : Option PS :=
  match splitLoop c rank color (isort splitLe s.splits) [] none with
  | (tasks, some r) =>
    if r < tasks.length then
      some { s with splits := [], comms := s.comms ++ [⟨tasks, r, c.gen + 1⟩] }
    else none
  | (_, none) => none

/-- A received entry, src/backends/tcp/minimpi.c 424-429, 460-465. -/
def splitGot (s : PS) (b : Body) : Option PS :=
  if b.length ≠ 24 then none else some { s with splits := s.splits ++ [unsplit b] }

/-- Own entry, src/backends/tcp/minimpi.c 402. -/
def splitInit (x : Split) (s : PS) : PS := { s with splits := [x] }

/-- The loop without a background thread, src/backends/tcp/minimpi.c 440-467. -/
def splitSync (c : Comm) (rank : Nat) (body : Body) : List Nat → PS → (PS → Prog PS) → Prog PS
  | [], s, k => k s
  | x :: xs, s, k =>
    if x = rank then
      sendAll c rank tSplit body (others c.tasks.length rank) (splitSync c rank body xs s k)
    else
      .recv ⟨c, rank, tSplit, x, 0⟩ fun b =>
        match splitGot s b with
        | some s' => splitSync c rank body xs s' k
        | none => .err

/-- `laik_tcp_minimpi_comm_split`, src/backends/tcp/minimpi.c 380-502. -/
def splitP (c : Comm) (rank : Nat) (async : Bool) (color hint : Int) (s : PS) (k : PS → Prog PS) :
    Prog PS :=
  let x : Split := ⟨color, hint, rank⟩
  let fin := fun s : PS =>
    match splitEnd c rank color s with
    | some s' => k s'
    | none => .err
  if async then
    .fork ((others c.tasks.length rank).map fun r => ⟨c, rank, tSplit, r, 0, x.bytes⟩)
      (recvAll c rank tSplit splitGot (others c.tasks.length rank) (splitInit x s) fun s =>
        .join (fin s))
  else
    splitSync c rank x.bytes (List.range c.tasks.length) (splitInit x s) fin

/-- A call by the process with the given rank. -/
def Call.prog (F : Flt) (rank : Nat) (s : PS) (k : PS → Prog PS) : Call → Prog PS
  | .bcast c x n ty root => bcastP c rank x (n * ty.bytes) root s k
  | .reduce c inp out n ty op root => reduceP F c rank inp out n ty op root s k
  | .allreduce c inp out n ty op => allreduceP F c rank inp out n ty op s k
  | .barrier c => barrierP c rank s k
  | .p2p c sd r tag x size y cap => p2pP c rank sd r tag x size y cap s k
  | .split c async color hint => splitP c rank async (color rank) (hint rank) s k

/-- Process `p` takes part in the calls for communicators it is in. -/
def callsP (F : Flt) (p : Nat) : List Call → PS → Prog PS
  | [], s => .ret s
  | d :: ds, s =>
    if p ∈ d.comm.tasks then d.prog F (d.comm.tasks.idxOf p) s (callsP F p ds) else callsP F p ds s

end Laik.Mm
