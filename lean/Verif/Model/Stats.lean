import Verif.Model.Combine
import Verif.Model.Async
/-!
# Model of statistics of action sequences (`src/action.c` 2423-2565, `src/backend-mpi.c` 964-990)
-/

namespace Laik

/-- Action types, include/laik/action.h 53-108, with the types of the MPI backend
counted (src/backend-mpi.c 88-93). -/
inductive AT
  | halt | nop | texec
  | bufReserve
  | mapSend | bufSend | rbufSend
  | mapRecv | bufRecv | rbufRecv
  | rbufLocalReduce | bufInit
  | copyFromBuf | copyToBuf | copyFromRBuf | copyToRBuf
  | mapPackAndSend | packAndSend
  | mapPackToRBuf | packToRBuf | mapPackToBuf | packToBuf
  | mapRecvAndUnpack | recvAndUnpack
  | mapUnpackFromRBuf | unpackFromRBuf | mapUnpackFromBuf | unpackFromBuf
  | reduce | rbufReduce
  | mapGroupReduce | groupReduce | rbufGroupReduce
  | copy
  | bufCopy | rbufCopy
  | mpiReq | mpiIsend | mpiIrecv | mpiWait
  deriving DecidableEq, Repr

/-- Parts of an action used for statistics: type, `count`, and for copy actions
the byte counts of the entries.  For all types with a count, the different
structs (include/laik/action-internal.h 75-160) are read with the right type. -/
structure SAct where
  type : AT
  count : Nat
  ce : List Nat
  deriving DecidableEq, Repr

/-- Aggregated numbers of `Laik_ActionSeq`, include/laik/action-internal.h
246-252.  Overflows of the totals are not modelled. -/
structure SStat where
  msgSend : Nat := 0
  msgRecv : Nat := 0
  msgReduce : Nat := 0
  msgAsyncSend : Nat := 0
  msgAsyncRecv : Nat := 0
  elemSend : Nat := 0
  elemRecv : Nat := 0
  elemReduce : Nat := 0
  byteSend : Nat := 0
  byteRecv : Nat := 0
  byteReduce : Nat := 0
  initOp : Nat := 0
  reduceOp : Nat := 0
  byteBufCopy : Nat := 0
  notProcessed : Nat := 0
  deriving DecidableEq, Repr

/-- `count * elemsize` is calculated as `unsigned int` (`count` and
`elemsize` are `unsigned int`). -/
def mul32 (count es : Nat) : Nat := count * es % 4294967296

/-- Loop body of `laik_aseq_calc_stats`, src/action.c 2454-2559; `none`: failed
assert (2464). -/
def statStep (es : Nat) (st : SStat) (a : SAct) : Option SStat :=
  match a.type with
  | .texec => some st
  | .bufReserve => none
  | .mapSend | .bufSend | .rbufSend | .packAndSend | .mapPackAndSend =>
    let st := { st with msgSend := st.msgSend + 1, elemSend := st.elemSend + a.count, byteSend := st.byteSend + mul32 a.count es }
    match a.type with
    | .packAndSend | .mapPackAndSend => some { st with byteBufCopy := st.byteBufCopy + mul32 a.count es }
    | _ => some st
  | .mapRecv | .bufRecv | .rbufRecv | .recvAndUnpack | .mapRecvAndUnpack =>
    let st := { st with msgRecv := st.msgRecv + 1, elemRecv := st.elemRecv + a.count, byteRecv := st.byteRecv + mul32 a.count es }
    match a.type with
    | .recvAndUnpack | .mapRecvAndUnpack => some { st with byteBufCopy := st.byteBufCopy + mul32 a.count es }
    | _ => some st
  | .reduce | .rbufReduce | .mapGroupReduce | .groupReduce | .rbufGroupReduce =>
    some { st with msgReduce := st.msgReduce + 1, elemReduce := st.elemReduce + a.count, byteReduce := st.byteReduce + mul32 a.count es }
  | .rbufLocalReduce => some { st with reduceOp := st.reduceOp + a.count }
  | .bufInit => some { st with initOp := st.initOp + a.count }
  | .rbufCopy | .bufCopy | .packToRBuf | .packToBuf | .mapPackToRBuf | .mapPackToBuf
  | .unpackFromRBuf | .unpackFromBuf | .mapUnpackFromRBuf | .mapUnpackFromBuf =>
    some { st with byteBufCopy := st.byteBufCopy + mul32 a.count es }
  | .copyToBuf | .copyToRBuf | .copyFromBuf | .copyFromRBuf =>
    some { st with byteBufCopy := a.ce.foldl (· + ·) st.byteBufCopy }
  | _ => some { st with notProcessed := st.notProcessed + 1 }

/-- Loop of `laik_aseq_calc_stats`, src/action.c 2454-2559. -/
def statGo (es : Nat) : SStat → List SAct → Option SStat
  | st, [] => some st
  | st, a :: l => (statStep es st a).bind (fun st => statGo es st l)

/-- `laik_aseq_calc_stats`, src/action.c 2427-2562. -/
def calcStats (es : Nat) (l : List SAct) : Option SStat := statGo es {} l

/-- Loop body of `laik_mpi_aseq_calc_stats`, src/backend-mpi.c 971-989. -/
def mpiStep (es : Nat) (st : SStat) (a : SAct) : SStat :=
  match a.type with
  | .mpiIsend =>
    { st with msgAsyncSend := st.msgAsyncSend + 1, elemSend := st.elemSend + a.count, byteSend := st.byteSend + mul32 a.count es }
  | .mpiIrecv =>
    { st with msgAsyncRecv := st.msgAsyncRecv + 1, elemRecv := st.elemRecv + a.count, byteRecv := st.byteRecv + mul32 a.count es }
  | _ => st

/-- `laik_aseq_calc_stats` followed by `laik_mpi_aseq_calc_stats` as in
`laik_mpi_prepare`, src/backend-mpi.c 1054-1055. -/
def mpiStats (es : Nat) (l : List SAct) : Option SStat := (calcStats es l).map (fun st => l.foldl (mpiStep es) st)

/-- Type of the actions considered for combining. -/
def CKey.at (r : Bool) : CKey → AT
  | .send _ => if r then .rbufSend else .bufSend
  | .recv _ => if r then .rbufRecv else .bufRecv
  | .gred _ _ _ => if r then .rbufGroupReduce else .groupReduce
  | .red _ _ => if r then .rbufReduce else .reduce

variable {β : Type}

/-- Statistics see an action before combining as this; `f` for other actions. -/
def CBody.stat (f : MOp CKey β → SAct) : CBody β → SAct
  | .comm k _ _ c => ⟨k.at false, c, []⟩
  | .other op => f op

/-- Statistics see an action after combining as this. -/
def CItem.stat (f : MOp CKey β → SAct) : CItem β → SAct
  | .act b => b.stat f
  | .copyTo ce => ⟨.copyToRBuf, ce.length, ce.map (·.bytes)⟩
  | .rcomm k _ c => ⟨k.at true, c, []⟩
  | .copyFrom ce => ⟨.copyFromRBuf, ce.length, ce.map (·.bytes)⟩

end Laik
