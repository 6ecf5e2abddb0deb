import Verif.Spec.Net
/-!
# Model of manual reductions (`src/action.c` 2067-2332, `src/backend-mpi.c`
566-678, `src/backend-tcp2.c` 2243-2320)

Groups are the lists of their processes in the order given by
`laik_trans_taskInGroup`.  Values are vectors of all elements of the action.
Sizes of buffers are not modelled here (see `AllocBuf`).  A result `none` stands
for a failed assert.
-/

namespace Laik

variable {V : Type}

/-- Processes of the input group without `me`, in order. -/
def others (inp : List Nat) (me : Nat) : List Nat := inp.filter (fun q => q ≠ me)

/-- Positions of the inputs in the temporary buffer (`bufOff`), src/action.c
2123-2143; own input first, with position 0 not used. -/
def bufOffs (inp : List Nat) (me : Nat) : List Nat :=
  (if me ∈ inp then [0] else []) ++ List.range (others inp me).length

/-- Receives into the temporary buffer, src/action.c 2131-2139. -/
def recvOthers (inp : List Nat) (me : Nat) : List RA :=
  (others inp me).zipIdx.map (fun x => .recvSlot x.2 x.1)

/-- Local part of the reduction, src/action.c 2145-2172 and 2258-2281. -/
def reduceLocal (c : RedCtx V) (inp : List Nat) (me : Nat) : List RA :=
  if inp.length = 0 then [.init]
  else (if me ∈ inp then (if c.inPlace me then [] else [.copyIn])
        else [.copySlot ((bufOffs inp me).getD 0 0)]) ++
    (List.range (inp.length - 1)).map (fun t => .redSlot ((bufOffs inp me).getD (t + 1) 0))

/-- `laik_aseq_addReduce3Rounds`, src/action.c 2067-2179. -/
def reduce3 (c : RedCtx V) (inp out : List Nat) (me : Nat) : Option (List RA) :=
  match out with
  | [] => none
  | r :: _ =>
    if me ≠ r then
      some ((if me ∈ inp then [.send r] else []) ++ (if me ∈ out then [.recvRes r] else []))
    else if inp.length ≤ 32 then
      some (recvOthers inp me ++ reduceLocal c inp me ++ (others out me).map .sendRes)
    else none

/-- `laik_aseq_addReduce2Rounds`, src/action.c 2185-2282. -/
def reduce2 (c : RedCtx V) (inp out : List Nat) (me : Nat) : Option (List RA) :=
  let snd : List RA := if me ∈ inp then (others out me).map .send else []
  if me ∈ out then
    (if inp.length ≤ 32 then some (snd ++ recvOthers inp me ++ reduceLocal c inp me) else none)
  else some snd

/-- Selection in `laik_aseq_splitReduce`, src/action.c 2311-2322.  The number of
outputs is taken from the input group. -/
def splitReduce (c : RedCtx V) (inp out : List Nat) (me : Nat) : Option (List RA) :=
  let inCount := inp.length
  let outCount := inp.length
  if inCount * outCount > 4 * (inCount + outCount) then reduce3 c inp out me else reduce2 c inp out me

/-- `laik_mpi_exec_groupReduce`, src/backend-mpi.c 566-678.  The limit by the
size of `packbuf` is not modelled. -/
def mpiGroupReduce (inp out : List Nat) (me : Nat) : Option (List RA) :=
  match out with
  | [] => none
  | r :: _ =>
    if me ≠ r then
      some ((if me ∈ inp then [.send r] else []) ++ (if me ∈ out then [.recvRes r] else []))
    else if inp.length ≤ 32 then
      let o := bufOffs inp me
      some (recvOthers inp me ++
        (if inp.length < 1 then [.init]
         else if inp.length < 2 then [if me ∈ inp then .copyIn else .copySlot (o.getD 0 0)]
         else (if me ∈ inp then .redInSlot (o.getD 1 0) else .redSlots (o.getD 0 0) (o.getD 1 0)) ::
           (List.range (inp.length - 2)).map (fun t => .redSlot (o.getD (t + 2) 0))) ++
        (others out me).map .sendRes)
    else none

/-- `exec_reduce`, src/backend-tcp2.c 2243-2320.  Received data is combined
directly with the output. -/
def tcp2Reduce (c : RedCtx V) (inp out : List Nat) (me : Nat) : Option (List RA) :=
  match out with
  | [] => none
  | r :: _ =>
    if me ≠ r then
      some ((if me ∈ inp then [.send r] else []) ++ (if me ∈ out then [.recvRes r] else []))
    else
      some ((if me ∈ inp then
          (if c.inPlace me then [] else [.copyIn]) ++ (others inp me).map .recvAcc
        else match others inp me with
          | [] => []
          | q :: l => .recvIn q :: l.map .recvAcc) ++
        (others out me).map .sendRes)

end Laik
