import Verif.Spec.DataExec
import Verif.Model.Transition
import Verif.Model.ActionSort
/-!
# Model of a switch over the TCP2 backend in 1d
(`src/data.c` 549-600, 779-860, `src/action.c` 790-845, 2374-2420,
`src/backend-tcp2.c` 2157-2383)
-/

namespace Laik.DE

/-- Kind of the action made from an operation of a transition. -/
def kindOf : ROp → AKind
  | .loc _ _ _ _ => .other
  | .send _ _ _ t => .send t
  | .recv _ _ _ s => .recv s
  | .red _ _ _ _ _ _ => .other

def isLoc : ROp → Bool
  | .loc _ _ _ _ => true
  | _ => false

def isSendOp : ROp → Bool
  | .send _ _ _ _ => true
  | _ => false

def isRecvOp : ROp → Bool
  | .recv _ _ _ _ => true
  | _ => false

def isRedOp : ROp → Bool
  | .red _ _ _ _ _ _ => true
  | _ => false

/-- `laik_aseq_splitTransitionExecs`, src/action.c 2374-2420, for the sequence
with one `TExec` action in round 0 made by `createTransASeq` (src/data.c
752-776): the actions added by `laik_aseq_addReds` (790-806),
`laik_aseq_addSends` (827-841) and `laik_aseq_addRecvs` (808-825).  The arrays of
a transition hold the operations of each type in the order of creation. -/
def splitExecs (ops : List ROp) : List (Act ROp) :=
  (ops.filter isRedOp ++ ops.filter isSendOp ++ ops.filter isRecvOp).map (fun op => ⟨0, kindOf op, op⟩)

/-- Memory cells of a process: cell of an index in a mapping of the source and of
the target partitioning (`laik_offset` from the start of the mapping). -/
structure Cells (A : Type) where
  src : Int → Int → A
  dst : Int → Int → A

/-- Receives at the reducing process, src/backend-tcp2.c 2295-2308: `red` is
false if the values received first overwrite. -/
def redRecvs {A : Type} (x y : Int) (dst : Int → A) : Bool → List Nat → List (DAct A)
  | _, [] => []
  | red, t :: ts => .recv t x y dst red :: redRecvs x y dst true ts

/-- `exec_reduce`, src/backend-tcp2.c 2246-2321; `none`: assert in
`laik_trans_taskInGroup` (src/space.c 1683-1692) for an empty output group.  The
copy (2291) is skipped in the code if the mapping structures are the same; the
cells are the same then. -/
def execReduce {A : Type} (M : Cells A) (me : Nat) (x y : Int) (ins outs : List Nat) (a b : Option (Int × Int)) :
    Option (List (DAct A)) :=
  match outs with
  | [] => none
  | r :: _ =>
    let f := M.src (a.getD (-1, -1)).2
    let t := M.dst (b.getD (-1, -1)).2
    if me ≠ r then
      some ((if me ∈ ins then [.send r x y f] else []) ++ (if me ∈ outs then [.recv r x y t false] else []))
    else
      some ((if me ∈ ins then [.copy x y f t] else []) ++
        redRecvs x y t (decide (me ∈ ins)) (ins.filter (fun q => q ≠ me)) ++
        (outs.filter (fun q => q ≠ me)).map (fun q => .send q x y t))

/-- One action in `tcp2_exec`, src/backend-tcp2.c 2345-2382. -/
def execAct {A : Type} (M : Cells A) (me : Nat) : ROp → Option (List (DAct A))
  | .send x y a t => some [.send t x y (M.src a.2)]
  | .recv x y b s => some [.recv s x y (M.dst b.2) false]
  | .red x y ins outs a b => execReduce M me x y ins outs a b
  | .loc _ _ _ _ => none

/-- Local copies in `copyMaps`, src/data.c 549-600; `skip a b`: from mapping `a`
to `b` nothing is copied as both lists are in the same reservation or mapping `a`
is reused for `b` (skips for mappings without memory are not modelled). -/
def copyOps {A : Type} (M : Cells A) (skip : Int → Int → Bool) (ops : List ROp) : List (DAct A) :=
  ops.filterMap (fun op => match op with
    | .loc x y a b => if skip a.2 b.2 then none else some (.copy x y (M.src a.2) (M.dst b.2))
    | _ => none)

/-- `prog` is what process `me` does in `doTransition` (src/data.c 779-860) for the
operations `ops` of its transition: the sequence is sorted (`tcp2_exec`,
src/backend-tcp2.c 2330-2343), executed, and local copies are done. -/
def IsSwitch {A : Type} (M : Cells A) (skip : Int → Int → Bool) (me : Nat) (ops : List ROp) (prog : List (DAct A)) : Prop :=
  ∃ s r l, IsPtrSort (cmp2phase me) (splitExecs ops) s ∧ sortSeq (splitExecs ops) s = some r ∧
    collect (fun a => execAct M me a.content) r = some l ∧ prog = l ++ copyOps M skip ops

end Laik.DE
