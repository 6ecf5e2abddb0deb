import Verif.Model.Tcp2Cells
/-!
# Model of a 1d switch with the backend for one process
(`src/backend-single.c` 69-115, `src/data.c` 549-601, 779-870)
-/

namespace Laik.Sgl

open DE

/-- Ways a switch can fail: assertion, access outside of allocated memory,
`memcpy` with overlapping regions. -/
inductive SFault
  | assert
  | oob
  | overlap
  deriving DecidableEq, Repr

/-- A 1d mapping (`struct _Laik_Mapping`, include/laik/data-internal.h 128-165):
`base` is the address of the first required index, counted in elements, `none`:
NULL; `[lo;hi[` is the required range; `reusedFor` is -1 if the memory is not
reused in the target list.  The data layout is the lexicographic one. -/
structure SMap where
  base : Option Int
  lo : Int
  hi : Int
  reusedFor : Int
  deriving DecidableEq, Repr

/-- Address of an index. -/
def SMap.cell (m : SMap) (i : Int) : Int := m.base.getD 0 + (i - m.lo)

/-- Mapping lists of the transition context, allocated memory blocks as pairs of
start and end address, and whether both lists belong to the same reservation. -/
structure SCtx where
  fl : List SMap
  tl : List SMap
  blocks : List (Int × Int)
  sameRes : Bool

/-- `n` elements at `a` are allocated memory. -/
def okRange (bl : List (Int × Int)) (a n : Int) : Bool := decide (n ≤ 0) || bl.any (fun b => decide (b.1 ≤ a ∧ a + n ≤ b.2))

variable {V : Type}

/-- `memcpy` of `n` elements.  Copying onto the same address has no effect. -/
def memcpyS (bl : List (Int × Int)) (m : Int → V) (d s n : Int) : Except SFault (Int → V) :=
  if n ≤ 0 then .ok m
  else if !(okRange bl s n && okRange bl d n) then .error .oob
  else if s ≠ d ∧ s < d + n ∧ d < s + n then .error .overlap
  else .ok (fun a => if d ≤ a ∧ a < d + n then m (s + (a - d)) else m a)

/-- Loop over the reductions of the transition, src/backend-single.c 92-110.
The group of all processes has only process 0. -/
def redLoopS (bl : List (Int × Int)) (f t : SMap) : List ROp → (Int → V) → Except SFault (Int → V)
  | [], m => .ok m
  | .red x y _ outs _ _ :: l, m =>
    match f.base, t.base with
    | some fb, some tb =>
      if 0 ∉ outs then .error .assert
      else if ¬ x < y then .error .assert
      else match memcpyS bl m tb fb (y - x) with
        | .ok m => redLoopS bl f t l m
        | .error e => .error e
    | _, _ => .error .assert
  | _ :: l, m => redLoopS bl f t l m

/-- Reductions of `laik_single_exec`, src/backend-single.c 83-111. -/
def redsS (c : SCtx) (ops : List ROp) (m : Int → V) : Except SFault (Int → V) :=
  if ops.any isRedOp then
    match c.fl, c.tl with
    | [f], [t] => redLoopS c.blocks f t (ops.filter isRedOp) m
    | _, _ => .error .assert
  else .ok m

/-- `laik_single_exec`, src/backend-single.c 69-115, for the operations of a 1d
transition (the action sequence with one `TExec` is made by `createTransASeq`,
src/data.c 752-776). -/
def singleExec (c : SCtx) (ops : List ROp) (m : Int → V) : Except SFault (Int → V) :=
  match redsS c ops m with
  | .error e => .error e
  | .ok m => if ops.any isRecvOp || ops.any isSendOp then .error .assert else .ok m

/-- `laik_data_copy` (src/data.c 533-546, src/layout.c 58-80) of a 1d range. -/
def copyRange (bl : List (Int × Int)) (f t : SMap) (x y : Int) (m : Int → V) : Except SFault (Int → V) :=
  if !(okRange bl (f.cell x) (y - x) && okRange bl (t.cell x) (y - x)) then .error .oob
  else .ok (doCopy m x y f.cell t.cell)

/-- Loop of `copyMaps`, src/data.c 560-600. -/
def copyLoopS (c : SCtx) : List ROp → (Int → V) → Except SFault (Int → V)
  | [], m => .ok m
  | .loc x y a b :: l, m =>
    match c.fl[a.2.toNat]?, c.tl[b.2.toNat]? with
    | some f, some t =>
      if t.hi ≤ t.lo then copyLoopS c l m
      else if f.base = none then copyLoopS c l m
      else if f.reusedFor = b.2 then
        if f.cell x = t.cell x then copyLoopS c l m else .error .assert
      else match copyRange c.blocks f t x y m with
        | .ok m => copyLoopS c l m
        | .error e => .error e
    | _, _ => .error .assert
  | _ :: l, m => copyLoopS c l m

/-- `copyMaps`, src/data.c 549-601. -/
def copyMapsS (c : SCtx) (ops : List ROp) (m : Int → V) : Except SFault (Int → V) :=
  if c.sameRes then .ok m else copyLoopS c (ops.filter isLoc) m

/-- `doTransition`, src/data.c 779-870, from the execution by the backend on:
memory after local copies.  Initialisation (`initMaps`) is not modelled: there are
no initialisations in transitions which preserve data. -/
def doTransS (c : SCtx) (ops : List ROp) (m : Int → V) : Except SFault (Int → V) :=
  match (if ops.any isSendOp || ops.any isRecvOp || ops.any isRedOp then singleExec c ops m else .ok m) with
  | .error e => .error e
  | .ok m => if ops.any isLoc then copyMapsS c ops m else .ok m

/-- Cells of the mappings. -/
def SCtx.cells (c : SCtx) : Cells Int where
  src k i := ((c.fl[k.toNat]?).getD ⟨none, 0, 0, -1⟩).cell i
  dst k i := ((c.tl[k.toNat]?).getD ⟨none, 0, 0, -1⟩).cell i

/-- Where nothing is copied. -/
def SCtx.skip (c : SCtx) (a b : Int) : Bool :=
  c.sameRes || decide (((c.fl[a.toNat]?).getD ⟨none, 0, 0, -1⟩).reusedFor = b)

/-- A range of process 0 is in the required range of its mapping, for which there
is allocated memory. -/
def Mapped (bl : List (Int × Int)) (l : List SMap) (r : TR) : Prop :=
  0 ≤ r.mapNo ∧ ∃ m b, l[r.mapNo.toNat]? = some m ∧ m.base = some b ∧ m.lo ≤ r.box.lo.x ∧ r.box.hi.x ≤ m.hi ∧
    ∃ k ∈ bl, k.1 ≤ b ∧ b + (m.hi - m.lo) ≤ k.2

end Laik.Sgl
