import Verif.Model.Stats
/-!
# Model of the statistics of a container (`src/data.c` 44-153)
-/

namespace Laik.Mem

/-- `struct _Laik_SwitchStat`, include/laik/data-internal.h 54-68.  Byte
numbers of memory are `uint64_t`; the counters which are summed up from action
sequences are those of `SStat` (without overflow). -/
structure SwStat where
  switches : Nat := 0
  noActions : Nat := 0
  mallocCount : Nat := 0
  freeCount : Nat := 0
  malloced : BitVec 64 := 0
  freed : BitVec 64 := 0
  inited : BitVec 64 := 0
  copied : BitVec 64 := 0
  curr : BitVec 64 := 0
  max : BitVec 64 := 0
  transitionCount : Nat := 0
  acts : SStat := {}
  deriving DecidableEq, Repr

/-- `laik_newSwitchStat`, src/data.c 44-81. -/
def newSwitchStat : SwStat := {}

/-- Sums of the action counters, src/data.c 97-110 and 117-130. -/
def addActs (a b : SStat) : SStat where
  msgSend := a.msgSend + b.msgSend
  msgRecv := a.msgRecv + b.msgRecv
  msgReduce := a.msgReduce + b.msgReduce
  msgAsyncSend := a.msgAsyncSend + b.msgAsyncSend
  msgAsyncRecv := a.msgAsyncRecv + b.msgAsyncRecv
  elemSend := a.elemSend + b.elemSend
  elemRecv := a.elemRecv + b.elemRecv
  elemReduce := a.elemReduce + b.elemReduce
  byteSend := a.byteSend + b.byteSend
  byteRecv := a.byteRecv + b.byteRecv
  byteReduce := a.byteReduce + b.byteReduce
  initOp := a.initOp + b.initOp
  reduceOp := a.reduceOp + b.reduceOp
  byteBufCopy := a.byteBufCopy + b.byteBufCopy
  notProcessed := a.notProcessed

/-- `laik_addSwitchStat`, src/data.c 83-111; `currAllocedBytes` of the target
is not changed. -/
def addSwitchStat (t s : SwStat) : SwStat where
  switches := t.switches + s.switches
  noActions := t.noActions + s.noActions
  mallocCount := t.mallocCount + s.mallocCount
  freeCount := t.freeCount + s.freeCount
  malloced := t.malloced + s.malloced
  freed := t.freed + s.freed
  max := t.max + s.max
  inited := t.inited + s.inited
  copied := t.copied + s.copied
  curr := t.curr
  transitionCount := t.transitionCount + s.transitionCount
  acts := addActs t.acts s.acts

/-- `laik_switchstat_addASeq`, src/data.c 113-131, with the counters of the
sequence; `none`: failed assert. -/
def addASeq (t : SwStat) (transitionCount : Nat) (a : SStat) : Option SwStat :=
  if transitionCount = 0 then none
  else some { t with transitionCount := t.transitionCount + transitionCount
                     acts := addActs t.acts a }

/-- `laik_switchstat_malloc`, src/data.c 133-143. -/
def ssMalloc (s : SwStat) (b : BitVec 64) : SwStat :=
  { s with mallocCount := s.mallocCount + 1
           malloced := s.malloced + b
           curr := s.curr + b
           max := if s.curr + b > s.max then s.curr + b else s.max }

/-- `laik_switchstat_free`, src/data.c 145-153. -/
def ssFree (s : SwStat) (b : BitVec 64) : SwStat :=
  { s with freeCount := s.freeCount + 1
           freed := s.freed + b
           curr := s.curr - b }

end Laik.Mem
