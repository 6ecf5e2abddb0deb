import Verif.Spec.Memory
/-!
# Model of combining actions (`src/action.c` 1108-1573)
-/

namespace Laik

/-- What has to agree (apart from the round) for actions to be combined:
`isSameBufSend` / `isSameBufRecv` / `isSameGroupReduce` / `isSameReduce`,
src/action.c 1096-1140. -/
inductive CKey
  | send (rank : Nat)
  | recv (rank : Nat)
  | gred (inG outG : Int) (op : Nat)
  | red (root : Int) (op : Nat)
  deriving DecidableEq, Repr

/-- Environment of the process: `myid` and `laik_trans_isInGroup(t, g, myid)`. -/
structure CEnv where
  myid : Int
  inGroup : Int → Bool
  elemsize : Nat

/-- This process provides input: lines 1351 (send), 1421 (group reduce),
1499 (reduce) of src/action.c. -/
def CEnv.isIn (e : CEnv) : CKey → Bool
  | .send _ => true
  | .recv _ => false
  | .gred i _ _ => e.inGroup i
  | .red _ _ => true

/-- This process gets output: lines 1390, 1450, 1526 of src/action.c. -/
def CEnv.isOut (e : CEnv) : CKey → Bool
  | .send _ => false
  | .recv _ => true
  | .gred _ o _ => e.inGroup o
  | .red r _ => r == e.myid || r == -1

/-- Actions: `comm` are the actions on buffers considered for combining (`src` is
the `buf`/`fromBuf`, `dst` the `buf`/`toBuf` pointer, `count` in elements); all
others are arbitrary operations.  Memory is addressed by bytes. -/
inductive CBody (β : Type)
  | comm (k : CKey) (src dst count : Nat)
  | other (op : MOp CKey β)

structure CAct (β : Type) where
  round : Nat
  body : CBody β

/-- `Laik_CopyEntry`. -/
structure CEntry where
  ptr : Nat
  bytes : Nat
  offset : Nat
  deriving DecidableEq, Repr

/-- Actions of the new sequence.  The copy actions and the communication
`rcomm` use the buffer reservation added in line 1304. -/
inductive CItem (β : Type)
  | act (b : CBody β)
  | copyTo (ce : List CEntry)
  | rcomm (k : CKey) (off count : Nat)
  | copyFrom (ce : List CEntry)

variable {β : Type}

/-- `a` is combined with an action with key `k` in round `r`. -/
def CAct.same (r : Nat) (k : CKey) (a : CAct β) : Bool :=
  match a.body with
  | .comm k' _ _ _ => decide (a.round = r ∧ k' = k)
  | .other _ => false

/-- Number of elements. -/
def CAct.count (a : CAct β) : Nat :=
  match a.body with
  | .comm _ _ _ c => c
  | .other _ => 0

def CAct.src (a : CAct β) : Nat :=
  match a.body with
  | .comm _ s _ _ => s
  | .other _ => 0

def CAct.dst (a : CAct β) : Nat :=
  match a.body with
  | .comm _ _ d _ => d
  | .other _ => 0

/-- Filling of the copy entries, e.g. src/action.c 1356-1369: consecutive
offsets in the buffer. -/
def entries (es : Nat) (ptr : CAct β → Nat) : Nat → List (CAct β) → List CEntry
  | _, [] => []
  | off, a :: l => { ptr := ptr a, bytes := a.count * es, offset := off * es } :: entries es ptr (off + a.count) l

def sumCount (l : List (CAct β)) : Nat := (l.map (·.count)).sum

/-- New actions for the group `g` of actions with the same key, with `bufOff`
elements of the buffer already used. -/
def emitGroup (e : CEnv) (r : Nat) (k : CKey) (bufOff : Nat) (g : List (CAct β)) : List (Nat × CItem β) :=
  (if e.isIn k then [(3 * r, .copyTo (entries e.elemsize CAct.src bufOff g))] else []) ++
  [(3 * r + 1, .rcomm k (bufOff * e.elemsize) (sumCount g))] ++
  (if e.isOut k then [(3 * r + 2, .copyFrom (entries e.elemsize CAct.dst bufOff g))] else [])

/-- Second pass of `laik_aseq_combineActions`, src/action.c 1314-1565, for the
remaining actions.  An action is marked if and only if its round and key are in
`seen`.  Also gives the final value of `bufOff`. -/
def combGo (e : CEnv) : List (Nat × CKey) → Nat → List (CAct β) → List (Nat × CItem β) × Nat
  | _, bufOff, [] => ([], bufOff)
  | seen, bufOff, a :: l =>
    match a.body with
    | .other op =>
      let r := combGo e seen bufOff l
      ((3 * a.round + 1, .act (.other op)) :: r.1, r.2)
    | .comm k s d c =>
      if (a.round, k) ∈ seen then combGo e seen bufOff l
      else
        let g := a :: l.filter (CAct.same a.round k)
        if g.length > 1 then
          let r := combGo e ((a.round, k) :: seen) (bufOff + sumCount g) l
          (emitGroup e a.round k bufOff g ++ r.1, r.2)
        else
          let r := combGo e ((a.round, k) :: seen) bufOff l
          ((3 * a.round + 1, .act (.comm k s d c)) :: r.1, r.2)

/-- First pass, src/action.c 1184-1289: `bufSize` and `copyRanges`. -/
def combSize (e : CEnv) : List (Nat × CKey) → List (CAct β) → Nat × Nat
  | _, [] => (0, 0)
  | seen, a :: l =>
    match a.body with
    | .other _ => combSize e seen l
    | .comm k _ _ _ =>
      if (a.round, k) ∈ seen then combSize e seen l
      else
        let g := a :: l.filter (CAct.same a.round k)
        let r := combSize e ((a.round, k) :: seen) l
        if g.length > 1 then
          (sumCount g + r.1, (if e.isIn k then g.length else 0) + (if e.isOut k then g.length else 0) + r.2)
        else r

/-- Number of copy entries used. -/
def CItem.ranges : CItem β → Nat
  | .copyTo ce => ce.length
  | .copyFrom ce => ce.length
  | _ => 0

/-- Result of `laik_aseq_combineActions`: unchanged, or a new sequence (with
rounds) using a buffer of given number of elements. -/
inductive CombRes (β : Type)
  | unchanged
  | new (bufSize : Nat) (l : List (Nat × CItem β))

/-- `laik_aseq_combineActions`, src/action.c 1167-1573; `none` for failed asserts
1292 and 1567-1568.  Simplifications: sizes are not reduced modulo 2^32, and
the limit 254 for rounds (130-162) and the maximal number of copy entry arrays
are not modelled. -/
def combine (e : CEnv) (l : List (CAct β)) : Option (CombRes β) :=
  let sz := combSize e [] l
  if sz.1 = 0 then (if sz.2 = 0 then some .unchanged else none)
  else
    let r := combGo e [] 0 l
    if (r.1.map (·.2.ranges)).sum = sz.2 ∧ sz.1 = r.2 then some (.new sz.1 r.1) else none

/-! ### Meaning of the sequences -/

/-- Operation of an action before combining. -/
def CBody.op (e : CEnv) (inp : CKey → Nat → β) : CBody β → MOp CKey β
  | .comm k s d c => commOp inp k (e.isIn k) (e.isOut k) s d (c * e.elemsize)
  | .other op => op

/-- Operations of the new actions with the reservation at address `B`
(src/backend-mpi.c 795-864; allocation adds the offset of the reservation). -/
def CItem.ops (e : CEnv) (inp : CKey → Nat → β) (B : Nat) : CItem β → List (MOp CKey β)
  | .act b => [b.op e inp]
  | .copyTo ce => ce.map (fun c => copyOp c.ptr (B + c.offset) c.bytes)
  | .rcomm k off count => [commOp inp k (e.isIn k) (e.isOut k) (B + off) (B + off) (count * e.elemsize)]
  | .copyFrom ce => ce.map (fun c => copyOp (B + c.offset) c.ptr c.bytes)

end Laik
