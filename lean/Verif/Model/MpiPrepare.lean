import Verif.Spec.MemorySeq
import Verif.Spec.NetExec
import Verif.Model.Combine
import Verif.Model.AllocBuf
import Verif.Model.ActionSort
import Verif.Model.Transition
import Mathlib.Data.Nat.Pairing
/-!
# Model of the preparation of a 1d transition by the MPI backend
(`laik_mpi_prepare`, `src/backend-mpi.c` 992-1055) and of its execution

Memory is addressed by bytes of type `β`.
-/

namespace Laik.Mp

open NX

variable {β : Type}

/-- What the transformations use: process `me` of `n`, element size, groups of the
transition (`t->subgroup`), memory address and first index of the mappings of the
source and the target (`Laik_Mapping`: `base`, `requiredRange.from`), the
reduction operation with its function on vectors of bytes of one element
(`laik_reduceFunc` of the type) and neutral element (`init`), and `mpi_reduce`
(src/backend-mpi.c 73).  Mappings without memory (`base` is 0) are not modelled. -/
structure PCtx (β : Type) where
  me : Nat
  n : Nat
  es : Nat
  gs : List (List Nat)
  fromMap : Int → Option (Nat × Int)
  toMap : Int → Option (Nat × Int)
  redOp : Nat
  red : List β → List β → List β
  neutral : List β
  useReduce : Bool

/-- `laik_trans_isInGroup(t, g, me)`, src/space.c 1663-1680, and `elemsize`. -/
def PCtx.env (c : PCtx β) : CEnv :=
  { myid := c.me, inGroup := fun g => decide (c.me ∈ transGroup c.n c.gs g), elemsize := c.es }

/-- Address of index `x` of a mapping; `none`: failed assert (src/action.c 1908,
1957, 2032, 2036) or no such mapping (1897, 1946, 1996, 2010). -/
def PCtx.addr (c : PCtx β) (m : Option (Nat × Int)) (x : Int) : Option Nat :=
  m.bind (fun m => if m.2 ≤ x then some (m.1 + (x - m.2).toNat * c.es) else none)

/-- Address for a process which may not be in the group, src/action.c 1993-2020. -/
def PCtx.addrIf (c : PCtx β) (g : Int) (m : Option (Nat × Int)) (x : Int) : Option Nat :=
  if c.me ∈ transGroup c.n c.gs g then c.addr m x else some 0

/-- `laik_aseq_flattenPacking`, src/action.c 1875-2059, for 1d and one action (of
round 0) made from an operation of a transition; `none`: failed assert. -/
def PCtx.flatOp (c : PCtx β) : TOp → Option (List (CAct β))
  | .loc _ _ _ _ => some []
  | .send x y no t => (c.addr (c.fromMap no.2) x).bind (fun s =>
      if x < y then some [⟨1, .comm (.send t) s 0 (u32 (y - x).toNat)⟩] else none)
  | .recv x y no q => (c.addr (c.toMap no.2) x).bind (fun d =>
      if x < y then some [⟨1, .comm (.recv q) 0 d (u32 (y - x).toNat)⟩] else none)
  | .red x y i o a b => (c.addrIf i (c.fromMap a.2) x).bind (fun s => (c.addrIf o (c.toMap b.2) x).bind (fun d =>
      if x < y then some [⟨1, .comm (.gred i o c.redOp) s d (u32 (y - x).toNat)⟩] else none))

def tIsRed : TOp → Bool
  | .red _ _ _ _ _ _ => true
  | _ => false

def tIsSend : TOp → Bool
  | .send _ _ _ _ => true
  | _ => false

def tIsRecv : TOp → Bool
  | .recv _ _ _ _ => true
  | _ => false

/-- `laik_aseq_splitTransitionExecs` (src/action.c 2374-2420) and flattening. -/
def PCtx.flat (c : PCtx β) (ops : List TOp) : Option (List (CAct β)) :=
  collect c.flatOp (ops.filter tIsRed ++ ops.filter tIsSend ++ ops.filter tIsRecv)

/-- `laik_aseq_replaceWithAllReduce`, src/action.c 2335-2380, for one action. -/
def PCtx.allRed (c : PCtx β) (a : CAct β) : CAct β :=
  match a.body with
  | .comm (.gred i o op) s d cnt =>
    if i = -1 then
      if o = -1 then ⟨a.round, .comm (.red (-1) op) s d cnt⟩
      else
        match transGroup c.n c.gs o with
        | [root] => ⟨a.round, .comm (.red root op) s d cnt⟩
        | _ => a
    else a
  | _ => a

/-- Actions after `laik_aseq_allocBuffer` (src/action.c 845-1056) with the buffer of
`laik_aseq_combineActions` at address `B`; the copies of one action are one
operation. -/
def allocItem (B : Nat) : CItem β → CBody β
  | .act b => b
  | .copyTo ce => .other (seqOp (ce.map (fun c => copyOp c.ptr (B + c.offset) c.bytes)))
  | .rcomm k off cnt => .comm k (B + off) (B + off) cnt
  | .copyFrom ce => .other (seqOp (ce.map (fun c => copyOp (B + c.offset) c.ptr c.bytes)))

/-- `laik_aseq_combineActions` and allocation of its buffer at `B`. -/
def PCtx.combineAt (c : PCtx β) (B : Nat) (l : List (CAct β)) : Option (List (CAct β)) :=
  (combine c.env l).map (fun r => match r with
    | .unchanged => l
    | .new _ cs => cs.map (fun y => ⟨y.1, allocItem B y.2⟩))

/-- `n` elements at `dst` are combined with those at `src` (RBufLocalReduce,
src/backend-mpi.c 915-920). -/
def PCtx.redLocal (c : PCtx β) (dst src n : Nat) : MOp CKey β where
  R y := (dst ≤ y ∧ y < dst + n * c.es) ∨ (src ≤ y ∧ y < src + n * c.es)
  W x := decide (dst ≤ x ∧ x < dst + n * c.es)
  val m _ x :=
    let j := (x - dst) / c.es
    (c.red (readMem m (dst + j * c.es) c.es) (readMem m (src + j * c.es) c.es)).getD ((x - dst) % c.es) (m x)
  key := none
  outB _ := []
  adv := 0
  val_local m m' _ x h hx := by
    simp only [decide_eq_true_eq] at hx
    have hj : (x - dst) / c.es * c.es + c.es ≤ n * c.es := by
      have h0 : 0 < c.es := by
        rcases Nat.eq_zero_or_pos c.es with h0 | h0
        · rw [h0] at hx; omega
        · exact h0
      have h1 : (x - dst) / c.es < n := (Nat.div_lt_iff_lt_mul h0).2 (by omega)
      have := Nat.mul_le_mul_right c.es h1
      rwa [Nat.succ_mul] at this
    have h1 : readMem m (dst + (x - dst) / c.es * c.es) c.es = readMem m' (dst + (x - dst) / c.es * c.es) c.es := by
      unfold readMem
      apply List.map_congr_left
      intro i hi
      rw [List.mem_range] at hi
      exact h _ (Or.inl ⟨by omega, by omega⟩)
    have h2 : readMem m (src + (x - dst) / c.es * c.es) c.es = readMem m' (src + (x - dst) / c.es * c.es) c.es := by
      unfold readMem
      apply List.map_congr_left
      intro i hi
      rw [List.mem_range] at hi
      exact h _ (Or.inr ⟨by omega, by omega⟩)
    simp only []
    rw [h1, h2, h x (Or.inl hx)]
  out_local _ _ _ := rfl

/-- `n` neutral elements at `dst` (BufInit, src/backend-mpi.c 931-934). -/
def PCtx.initLocal (c : PCtx β) (dst n : Nat) : MOp CKey β where
  R y := dst ≤ y ∧ y < dst + n * c.es
  W x := decide (dst ≤ x ∧ x < dst + n * c.es)
  val m _ x := c.neutral.getD ((x - dst) % c.es) (m x)
  key := none
  outB _ := []
  adv := 0
  val_local m m' _ x h hx := by
    simp only [decide_eq_true_eq] at hx
    rw [h x hx]
  out_local _ _ _ := rfl

/-- Receives into the buffer at `B`, src/action.c 2131-2139 and 2244-2252. -/
def PCtx.slotRecvs (c : PCtx β) (B r cnt : Nat) (ins : List Nat) : List (CAct β) :=
  (ins.filter (fun q => q ≠ c.me)).zipIdx.map (fun x => ⟨3 * r, .comm (.recv x.1) 0 (B + x.2 * (cnt * c.es)) cnt⟩)

/-- Local part of the reduction, src/action.c 2145-2172 and 2258-2281. -/
def PCtx.slotReduce (c : PCtx β) (B r s d cnt : Nat) (ins : List Nat) : List (CAct β) :=
  let k := (ins.filter (fun q => q ≠ c.me)).length
  let slot := fun t => B + t * (cnt * c.es)
  if ins = [] then [⟨3 * r + 1, .other (c.initLocal d cnt)⟩]
  else if c.me ∈ ins then
    (if s = d then [] else [⟨3 * r + 1, .other (copyOp s d (cnt * c.es))⟩]) ++
    (List.range k).map (fun t => ⟨3 * r + 1, .other (c.redLocal d (slot t) cnt)⟩)
  else
    ⟨3 * r + 1, .other (copyOp (slot 0) d (cnt * c.es))⟩ ::
    (List.range (k - 1)).map (fun t => ⟨3 * r + 1, .other (c.redLocal d (slot (t + 1)) cnt)⟩)

/-- Bytes of the reserved buffer. -/
def PCtx.slotSize (c : PCtx β) (cnt : Nat) (ins : List Nat) : Nat :=
  (ins.filter (fun q => q ≠ c.me)).length * (cnt * c.es)

/-- `laik_aseq_addReduce3Rounds`, src/action.c 2067-2179, with buffer at `B`; gives
the actions and the size of the buffer; `none`: failed assert (2126, or an empty
output group). -/
def PCtx.red3 (c : PCtx β) (B r s d cnt : Nat) (ins outs : List Nat) : Option (List (CAct β) × Nat) :=
  match outs with
  | [] => none
  | t :: _ =>
    if c.me ≠ t then
      some ((if c.me ∈ ins then [⟨3 * r, .comm (.send t) s 0 cnt⟩] else []) ++
        (if c.me ∈ outs then [⟨3 * r + 2, .comm (.recv t) 0 d cnt⟩] else []), 0)
    else if ins.length ≤ 32 then
      some (c.slotRecvs B r cnt ins ++ c.slotReduce B r s d cnt ins ++
        (outs.filter (fun q => q ≠ c.me)).map (fun q => ⟨3 * r + 2, .comm (.send q) d 0 cnt⟩), c.slotSize cnt ins)
    else none

/-- `laik_aseq_addReduce2Rounds`, src/action.c 2185-2282; `none`: failed assert
(2240). -/
def PCtx.red2 (c : PCtx β) (B r s d cnt : Nat) (ins outs : List Nat) : Option (List (CAct β) × Nat) :=
  let snd : List (CAct β) := if c.me ∈ ins then
    (outs.filter (fun q => q ≠ c.me)).map (fun q => ⟨3 * r, .comm (.send q) s 0 cnt⟩) else []
  if c.me ∈ outs then
    (if ins.length ≤ 32 then
      some (snd ++ c.slotRecvs B r cnt ins ++ c.slotReduce B r s d cnt ins, c.slotSize cnt ins) else none)
  else some (snd, 0)

def CAct.isGred (a : CAct β) : Bool :=
  match a.body with
  | .comm (.gred _ _ _) _ _ _ => true
  | _ => false

/-- Loop of `laik_aseq_splitReduce`, src/action.c 2305-2328; the buffers of all
reductions are in one allocation (`laik_aseq_allocBuffer`), here from `B`. -/
def PCtx.splitGo (c : PCtx β) : Nat → List (CAct β) → Option (List (CAct β))
  | _, [] => some []
  | B, a :: l =>
    match a.body with
    | .comm (.gred i o _) s d cnt =>
      let ins := transGroup c.n c.gs i
      let outs := transGroup c.n c.gs o
      (if ins.length * ins.length > 4 * (ins.length + ins.length) then c.red3 B a.round s d cnt ins outs
       else c.red2 B a.round s d cnt ins outs).bind (fun x => (c.splitGo (B + x.2) l).map (x.1 ++ ·))
    | b => (c.splitGo B l).map (⟨3 * a.round + 1, b⟩ :: ·)

/-- `laik_aseq_splitReduce`, src/action.c 2286-2333, with its buffer at `B`. -/
def PCtx.splitReduce (c : PCtx β) (B : Nat) (l : List (CAct β)) : Option (List (CAct β)) :=
  if l.any CAct.isGred then c.splitGo B l else some l

/-- Kind of the action for sorting. -/
def CBody.kind : CBody β → AKind
  | .comm (.send q) _ _ _ => .send q
  | .comm (.recv q) _ _ _ => .recv q
  | _ => .other

def CAct.toAct (a : CAct β) : Act (CBody β) := ⟨a.round, CBody.kind a.body, a.body⟩
def Act.toC (a : Act (CBody β)) : CAct β := ⟨a.round, a.content⟩

/-- Bytes of the buffer reserved by `laik_aseq_combineActions` (src/action.c 1301). -/
def PCtx.combBytes (c : PCtx β) (l : List (CAct β)) : Nat := (combSize c.env [] l).1 * c.es

/-- Bytes of the buffers reserved by `laik_aseq_splitReduce`. -/
def PCtx.splitBytes (c : PCtx β) : List (CAct β) → Nat
  | [] => 0
  | a :: l =>
    (match a.body with
    | .comm (.gred i o _) s d cnt =>
      let ins := transGroup c.n c.gs i
      let outs := transGroup c.n c.gs o
      ((if ins.length * ins.length > 4 * (ins.length + ins.length) then c.red3 0 a.round s d cnt ins outs
        else c.red2 0 a.round s d cnt ins outs).map (·.2)).getD 0
    | _ => 0) + c.splitBytes l

/-- Memory of `n` bytes at `B` does not overlap with memory in use: what `malloc`
returns (`laik_aseq_allocBuffer`, src/action.c 845-1056). -/
def Fresh (inUse : Nat → Prop) (B n : Nat) : Prop := ∀ x, B ≤ x → x < B + n → ¬ inUse x

/-- `laik_mpi_prepare`, src/backend-mpi.c 992-1042 (up to the last sorting): result
for the operations `ops` of a transition.  The buffers allocated are at `B1`, `B2`,
`B3`, `inUse` is the memory used before. -/
def PCtx.PreparedSeq (c : PCtx β) (inUse : Nat → Prop) (B1 B2 B3 : Nat) (ops : List TOp) (l5 : List (Act (CBody β))) : Prop :=
  ∃ l l0 l1 l2 s1 l3 l4 s2, c.flat ops = some l ∧ l0 = (if c.useReduce then l.map c.allRed else l) ∧
    c.combineAt B1 l0 = some l1 ∧ Fresh inUse B1 (c.combBytes l0) ∧
    c.splitReduce B2 l1 = some l2 ∧ Fresh (fun x => inUse x ∨ (B1 ≤ x ∧ x < B1 + c.combBytes l0)) B2 (c.splitBytes l1) ∧
    IsPtrSort cmpRounds (l2.map CAct.toAct) s1 ∧ sortSeq (l2.map CAct.toAct) s1 = some l3 ∧
    c.combineAt B3 (l3.map Act.toC) = some l4 ∧
    Fresh (fun x => inUse x ∨ (B1 ≤ x ∧ x < B1 + c.combBytes l0) ∨ (B2 ≤ x ∧ x < B2 + c.splitBytes l1)) B3 (c.combBytes (l3.map Act.toC)) ∧
    IsPtrSort (cmp2phase c.me) (l4.map CAct.toAct) s2 ∧ sortSeq (l4.map CAct.toAct) s2 = some l5

/-- `laik_mpi_prepare`, src/backend-mpi.c 992-1042, without asynchronous
communication (`mpi_async` is 0). -/
def PCtx.Prepared (c : PCtx β) (inUse : Nat → Prop) (B1 B2 B3 : Nat) (ops : List TOp) (prog : List (CBody β)) : Prop :=
  ∃ l5, c.PreparedSeq inUse B1 B2 B3 ops l5 ∧ prog = l5.map (·.content)

/-- Store bytes at `d`. -/
def writeMem (m : Nat → β) (d : Nat) (vs : List β) : Nat → β :=
  fun x => if d ≤ x then vs.getD (x - d) (m x) else m x

/-- Number of a collective, for a reduction with root (-1: all) and operation.  A
process waits until all processes call the same. -/
def collNo (root : Int) (op : Nat) : Nat := Nat.pair (root + 1).toNat op

/-- `laik_mpi_exec`, src/backend-mpi.c 680-955, one action.  A receive checks the
size of the message, the result of a collective has at most the size given.  There is no `GroupReduce` after `laik_aseq_splitReduce`. -/
def PCtx.exec (c : PCtx β) : CBody β → XAct (Nat → β) β
  | .comm (.send q) s _ cnt => .send q (fun m => readMem m s (cnt * c.es))
  | .comm (.recv q) _ d cnt => .recv q (cnt * c.es) (fun m vs => writeMem m d vs)
  | .comm (.red root op) s d cnt => .coll (collNo root op) (fun m => readMem m s (cnt * c.es))
      (fun m vs => if root = c.me ∨ root = -1 then writeMem m d (vs.take (cnt * c.es)) else m)
  | .comm (.gred _ _ _) _ _ _ => .loc id
  | .other op => .loc (fun m => (op.run (MSt.ofMem m)).mem)

/-- Local copies in `copyMaps`, src/data.c 549-600, one operation: in 1d one
`memcpy` per operation here (the layout copies element by element in ascending
order); see `DE.copyOps` for `skip`. -/
def PCtx.copyLoc (c : PCtx β) (skip : Int → Int → Bool) : TOp → Option (List (CBody β))
  | .loc x y a b => if skip a.2 b.2 then some [] else
      (c.addr (c.fromMap a.2) x).bind (fun s => (c.addr (c.toMap b.2) x).map (fun d =>
        [.other (copyOp s d ((y - x).toNat * c.es))]))
  | _ => some []

/-- What a process does in `doTransition` (src/data.c 779-860): prepare, execute,
local copies. -/
def PCtx.IsSwitch (c : PCtx β) (inUse : Nat → Prop) (skip : Int → Int → Bool) (ops : List TOp) (prog : List (CBody β)) : Prop :=
  ∃ B1 B2 B3 p1 p2, c.Prepared inUse B1 B2 B3 ops p1 ∧ collect (c.copyLoc skip) ops = some p2 ∧ prog = p1 ++ p2

end Laik.Mp
