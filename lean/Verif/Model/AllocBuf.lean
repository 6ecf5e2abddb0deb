import Verif.Model.Combine
/-!
# Model of temporary buffers of action sequences (`src/action.c` 263-283, 845-1056)
-/

namespace Laik

/-- An action using a buffer (RBufCopy, RBufLocalReduce, RBufSend, RBufRecv,
RBufReduce, PackToRBuf, UnpackFromRBuf, MapPackToRBuf, MapUnpackFromRBuf,
CopyFromRBuf, CopyToRBuf, RBufGroupReduce; src/action.c 880-892).  For the copy
actions, `ce` are the copy entries and `count` is their number. -/
structure RUse where
  bufID : Nat
  off : Nat
  count : Nat
  ce : Option (List CEntry)
  deriving DecidableEq, Repr

/-- Actions as far as relevant for buffers.  `res` is BufReserve. -/
inductive BAct
  | res (bufID size : Nat)
  | use (u : RUse)
  | other (n : Nat)
  deriving DecidableEq, Repr

/-- Part of `Laik_ActionSeq`, include/laik/action-internal.h 212-227:
`bufReserveCount` and the sizes of allocated buffers. -/
structure BSeq where
  acts : List BAct
  resCount : Nat
  bufs : List Nat
  deriving DecidableEq, Repr

/-- 32-bit unsigned. -/
def u32 (n : Nat) : Nat := n % 2 ^ 32

/-- `laik_aseq_addBufReserve` with `bufID < 0`, src/action.c 263-283. -/
def addBufReserve (s : BSeq) (size : Nat) : BSeq × Nat :=
  ({ s with acts := s.acts ++ [.res (s.resCount + 100) (u32 size)], resCount := s.resCount + 1 }, s.resCount + 100)

/-- Adding an action using a buffer or any other action. -/
def addUse (s : BSeq) (a : RUse) : BSeq := { s with acts := s.acts ++ [.use a] }

/-- Entry of `resAction` for `bufID`: offset and size. -/
def lookupRes (t : List (Nat × Nat × Nat)) (id : Nat) : Option (Nat × Nat) :=
  (t.find? (fun e => e.1 = id)).map (·.2)

/-- First loop of `laik_aseq_allocBuffer`, src/action.c 861-940.  `t` is the
table `resAction`, with the last processed reservation first.  `none` if an
assert fails.  Gives the updated actions, `bufSize` and the table. -/
def allocPass (es rc bc : Nat) : List BAct → Nat → List (Nat × Nat × Nat) → Option (List BAct × Nat × List (Nat × Nat × Nat))
  | [], n, t => some ([], n, t)
  | .res id size :: l, n, t =>
    if id < 5 then (allocPass es rc bc l n t).map (fun r => (.res id size :: r.1, r.2))
    else if 100 ≤ id ∧ id < 100 + rc then
      (allocPass es rc bc l (u32 (n + size)) ((id, n, size) :: t)).map (fun r => (.res bc size :: r.1, r.2))
    else none
  | .use u :: l, n, t =>
    if u.bufID < 5 then (allocPass es rc bc l n t).map (fun r => (.use u :: r.1, r.2))
    else if 100 ≤ u.bufID ∧ u.bufID < 100 + rc then
      match lookupRes t u.bufID with
      | none => none
      | some (o, size) =>
        if 0 < u.count ∧ u.off + u32 (u.count * es) ≤ size then
          (allocPass es rc bc l n t).map (fun r => (.use { u with bufID := bc, off := u32 (u.off + o) } :: r.1, r.2))
        else none
    else none
  | .other k :: l, n, t => (allocPass es rc bc l n t).map (fun r => (.other k :: r.1, r.2))

def BAct.isRes : BAct → Bool
  | .res _ _ => true
  | _ => false

/-- `laik_aseq_allocBuffer`, src/action.c 845-1056.  `none` for failed asserts.
The second pass removes BufReserve actions and replaces the pair of buffer ID and
offset by a pointer into the new buffer for most actions; the model keeps the
pair.  Out of memory is not modelled. -/
def allocBuffer (es : Nat) (s : BSeq) : Option (Bool × BSeq) :=
  if 5 ≤ s.bufs.length then none
  else
    match allocPass es s.resCount s.bufs.length s.acts 0 [] with
    | none => none
    | some (acts, n, t) =>
      if n = 0 then some (false, { s with acts := acts })
      else if t.length = s.resCount then
        some (true, { acts := acts.filter (fun a => !a.isRes), resCount := 0, bufs := s.bufs ++ [n] })
      else none

end Laik
