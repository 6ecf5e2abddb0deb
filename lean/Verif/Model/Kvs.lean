import Mathlib.Data.List.Nodup
/-!
# Model of the key-value store (`src/kvs.c`) and its synchronization (`src/backend-mpi.c` 1080-1193)

Bytes are numbers, strings are lists of bytes without the terminating 0.  `none`
stands for a failed assert, a call of `exit(1)` or undefined behaviour.  Not
modelled: overflow of `int`/`unsigned` for sizes above 2^31 bytes, out of memory,
the `data` pointer of entries, callbacks and logging.
-/

namespace Laik

abbrev Bytes := List Nat

/-- C library `strcmp` (only the sign of the result is used). -/
def strcmp : Bytes → Bytes → Int
  | [], [] => 0
  | [], _ :: _ => -1
  | _ :: _, [] => 1
  | a :: as, b :: bs => if a < b then -1 else if b < a then 1 else strcmp as bs

/-- C library `memcmp(e, v, size)` tested for 0, where `size` is the length of
`v`.  `none` if reading goes beyond the end of the object `e`.  Reading is
assumed to stop at the first difference. -/
def memcmpEq : (e v : Bytes) → Option Bool
  | _, [] => some true
  | [], _ :: _ => none
  | a :: as, b :: bs => if a = b then memcmpEq as bs else some false

/-- C library `strncmp(a, b, n)` tested for 0, where both objects have `n` bytes. -/
def strncmpEq : Bytes → Bytes → Bool
  | a :: as, b :: bs => if a = b then (if a = 0 then true else strncmpEq as bs) else false
  | _, _ => true

/-- `struct _Laik_KVS_Entry`, include/laik/core-internal.h 156-163.  `value` is
`none` for the null pointer, used for removed entries (with `vlen` 0). -/
structure KEnt where
  key : Bytes
  value : Option Bytes
  updated : Bool
  deriving DecidableEq, Repr

/-- `struct _Laik_KVS_Changes`, include/laik/core-internal.h 167-174.  The used
sizes are the lengths of the lists.  Entries have no pointers but copies. -/
structure Changes where
  off : List Nat
  data : Bytes
  ent : List KEnt
  offSize : Nat
  dataSize : Nat
  entSize : Nat
  deriving DecidableEq, Repr

/-- `laik_kvs_changes_init`, src/kvs.c 51-64. -/
def chInit : Changes := ⟨[], [], [], 0, 0, 0⟩

/-- `laik_kvs_changes_ensure_size`, src/kvs.c 67-88. -/
def chEnsureSize (c : Changes) (n dlen : Nat) : Option Changes :=
  if c.ent.length = 0 then
    some { c with
      offSize := if c.offSize < n then n else c.offSize
      dataSize := if c.dataSize < dlen then dlen else c.dataSize
      entSize := if c.entSize < n / 2 then n / 2 else c.entSize }
  else none

/-- `laik_kvs_changes_set_size`, src/kvs.c 91-102, after setting the offset and
data array to `off` and `data` (both sizes 0: clear). -/
def chSetSize (c : Changes) (off : List Nat) (data : Bytes) : Option Changes :=
  if (off.length = 0 ∨ off.length % 2 = 1) ∧ off.length ≤ c.offSize ∧ data.length ≤ c.dataSize ∧
      off.length / 2 ≤ c.entSize then
    some { c with off := off, data := data, ent := [] }
  else none

/-- Allocation in `laik_kvs_changes_add`, src/kvs.c 134-141. -/
def chReserve (c : Changes) (key data : Bytes) : Option Changes :=
  let klen := key.length + 1
  let offNeeded := if c.off.length = 0 then 3 else c.off.length + 2
  let dataNeeded := c.data.length + klen + data.length
  if c.offSize < offNeeded ∨ c.dataSize < dataNeeded then
    chEnsureSize c (2 * offNeeded) (2 * dataNeeded)
  else some c

/-- Rest of `laik_kvs_changes_add`, src/kvs.c 143-177. -/
def chAppend (c : Changes) (key data : Bytes) (appendSorted : Bool) : Option Changes :=
  let klen := key.length + 1
  let off := if c.off.length = 0 then [0] else c.off
  if off.length + 2 ≤ c.offSize ∧ c.data.length + klen + data.length ≤ c.dataSize ∧
      off.getLast? = some c.data.length then
    let d := c.data.length
    let c' := { c with off := off ++ [d + klen, d + klen + data.length], data := c.data ++ key ++ [0] ++ data }
    if appendSorted then
      if (∀ e ∈ c.ent.getLast?, strcmp e.key key < 0) ∧ c.ent.length < c.entSize then
        some { c' with ent := c.ent ++ [⟨key, some data, false⟩] }
      else none
    else some c'
  else none

/-- `laik_kvs_changes_add`, src/kvs.c 125-178. -/
def chAdd (c : Changes) (key data : Bytes) (doAlloc appendSorted : Bool) : Option Changes :=
  (if doAlloc then chReserve c key data else some c).bind fun c => chAppend c key data appendSorted

/-- The C string at offset `o`. -/
def cstrAt (data : Bytes) (o : Nat) : Bytes := (data.drop o).takeWhile (· ≠ 0)

/-- Loop of `laik_kvs_changes_sort`, src/kvs.c 196-217, over the remaining
offsets; `n` is the number of entries already set. -/
def chFill (data : Bytes) (entSize : Nat) : List Nat → Nat → Option (List KEnt)
  | a :: b :: d :: r, n =>
    if n < entSize ∧ a < b ∧ b < d ∧ d ≤ data.length ∧ data[b - 1]? = some 0 then
      (chFill data entSize (d :: r) (n + 1)).map (⟨cstrAt data a, some ((data.drop b).take (d - b)), false⟩ :: ·)
    else none
  | _, _ => some []

/-- What qsort (C library) with `entrycmp`, src/kvs.c 181-186, does: a sorted
permutation; the order of entries with the same key is left open. -/
structure IsQsort (q : List KEnt → List KEnt) : Prop where
  perm : ∀ l, (q l).Perm l
  sorted : ∀ l, (q l).Pairwise (fun a b => strcmp a.key b.key ≤ 0)

/-- `laik_kvs_changes_sort`, src/kvs.c 188-221. -/
def chSort (q : List KEnt → List KEnt) (c : Changes) : Option Changes :=
  if c.off.length = 0 then some c
  else if c.off.length % 2 = 1 ∧ c.ent.length = 0 then
    (chFill c.data c.entSize c.off 0).bind fun es =>
      if es.length * 2 + 1 = c.off.length then some { c with ent := q es } else none
  else none

/-- Loop body adding one entry in `laik_kvs_changes_merge`. -/
def chAddEnt (dst : Changes) (e : KEnt) : Option Changes := chAdd dst e.key (e.value.getD []) false true

/-- Loops of `laik_kvs_changes_merge`, src/kvs.c 232-266. -/
def chMergeGo : List KEnt → List KEnt → Changes → Option Changes
  | [], [], dst => some dst
  | e :: l, [], dst => (chAddEnt dst e).bind (chMergeGo l [])
  | [], e :: l, dst => (chAddEnt dst e).bind (chMergeGo [] l)
  | e1 :: l1, e2 :: l2, dst =>
    let res := strcmp e1.key e2.key
    if res < 0 then (chAddEnt dst e1).bind (chMergeGo l1 (e2 :: l2))
    else if res > 0 then (chAddEnt dst e2).bind (chMergeGo (e1 :: l1) l2)
    else if (e1.value.getD []).length ≠ (e2.value.getD []).length ∨
        strncmpEq (e1.value.getD []) (e2.value.getD []) = false then none
    else (chAddEnt dst e1).bind (chMergeGo l1 l2)
termination_by l1 l2 => l1.length + l2.length
decreasing_by all_goals (simp only [List.length_cons, List.length_nil]; omega)

/-- `laik_kvs_changes_merge`, src/kvs.c 223-267. -/
def chMerge (dst src1 src2 : Changes) : Option Changes := do
  let dst ← chSetSize dst [] []
  let dst ← chEnsureSize dst (src1.off.length + src2.off.length) (src1.data.length + src2.data.length)
  chMergeGo src1.ent src2.ent dst

/-- `struct _Laik_KVStore`, include/laik/core-internal.h 176-195.  `size` (of the
entry array) is not modelled, as the array grows as needed. -/
structure KVS where
  ent : List KEnt
  sortedUpto : Nat
  changes : Changes
  inSync : Bool
  deriving DecidableEq, Repr

/-- `laik_kvs_new`, src/kvs.c 292-313. -/
def kvsNew : KVS :=
  ⟨[], 0, ⟨[], [], [], 10, 1000, 5⟩, false⟩

/-- Binary search in `laik_kvs_entry`, src/kvs.c 473-488, gives the index. -/
def kvsBsearch (ent : List KEnt) (key : Bytes) (low high : Int) : Option (Option Nat) :=
  if _h : low ≤ high then
    let mid := (low + high) / 2
    match ent[mid.toNat]? with
    | none => none
    | some e =>
      let res := strcmp key e.key
      if res = 0 then some (some mid.toNat)
      else if res < 0 then kvsBsearch ent key low (mid - 1)
      else kvsBsearch ent key (mid + 1) high
  else some none
termination_by (high + 1 - low).toNat
decreasing_by all_goals omega

/-- Linear search in `laik_kvs_entry`, src/kvs.c 490-494. -/
def kvsLsearch (key : Bytes) : List KEnt → Nat → Option Nat
  | [], _ => none
  | e :: l, i => if strcmp e.key key = 0 then some i else kvsLsearch key l (i + 1)

/-- `laik_kvs_entry`, src/kvs.c 467-496: index of the entry.  The outer `none`
stands for an access beyond the end of the entry array. -/
def kvsEntry (s : KVS) (key : Bytes) : Option (Option Nat) :=
  (kvsBsearch s.ent key 0 ((s.sortedUpto : Int) - 1)).map fun
    | some i => some i
    | none => kvsLsearch key (s.ent.drop s.sortedUpto) s.sortedUpto

/-- `laik_kvs_get`, src/kvs.c 505-511: value with size. -/
def kvsGet (s : KVS) (key : Bytes) : Option (Option Bytes) :=
  (kvsEntry s key).map fun
    | some i => (s.ent[i]?).bind (·.value)
    | none => none

/-- `laik_kvs_count`, src/kvs.c 513-517. -/
def kvsCount (s : KVS) : Nat := s.ent.length

/-- `remove_entry`, src/kvs.c 324-338, for the entry with index `i`. -/
def kvsRemoveEntry (s : KVS) (i : Nat) : Option KVS :=
  match s.ent[i]? with
  | none => none
  | some e =>
    let s := { s with ent := s.ent.set i { e with value := none } }
    if s.inSync then some s
    else (chAdd s.changes e.key [] true false).map fun c => { s with changes := c }

/-- `laik_kvs_clean`, src/kvs.c 341-348, from index `i` with `n` entries left. -/
def kvsCleanGo : (n i : Nat) → KVS → Option KVS
  | 0, _, s => some s
  | n + 1, i, s =>
    match s.ent[i]? with
    | none => none
    | some e => if e.value = none then kvsCleanGo n (i + 1) s else (kvsRemoveEntry s i).bind (kvsCleanGo n (i + 1))

/-- `laik_kvs_clean`, src/kvs.c 341-348. -/
def kvsClean (s : KVS) : Option KVS := kvsCleanGo s.ent.length 0 s

/-- `laik_kvs_remove`, src/kvs.c 351-357. -/
def kvsRemove (s : KVS) (key : Bytes) : Option (Bool × KVS) :=
  (kvsEntry s key).bind fun
    | none => some (false, s)
    | some i => (kvsRemoveEntry s i).map fun s => (true, s)

/-- End of `laik_kvs_set`, src/kvs.c 403-434: the update of the entry with index
`i`, having `updated` flag `upd`. -/
def kvsStore (s : KVS) (i : Nat) (key value : Bytes) (upd : Bool) : Option KVS :=
  if upd && s.inSync then none
  else if s.inSync then some { s with ent := s.ent.set i ⟨key, some value, upd⟩ }
  else (chAdd s.changes key value true false).map fun c =>
    { s with ent := s.ent.set i ⟨key, some value, true⟩, changes := c }

/-- `laik_kvs_set`, src/kvs.c 362-435, with a non-null value. -/
def kvsSet (s : KVS) (key value : Bytes) : Option KVS :=
  (kvsEntry s key).bind fun
    | some i =>
      match s.ent[i]? with
      | none => none
      | some e =>
        match e.value with
        | some old => (memcmpEq old value).bind fun eq => if eq then some s else kvsStore s i e.key value e.updated
        | none => kvsStore s i e.key value e.updated
    | none => kvsStore { s with ent := s.ent ++ [⟨key, none, false⟩] } s.ent.length key value false

/-- `laik_kvs_sets`, src/kvs.c 438-442. -/
def kvsSets (s : KVS) (key str : Bytes) : Option KVS := kvsSet s key (str ++ [0])

/-- `laik_kvs_sort`, src/kvs.c 547-551. -/
def kvsSort (q : List KEnt → List KEnt) (s : KVS) : KVS := { s with ent := q s.ent, sortedUpto := s.ent.length }

/-- Loop of `laik_kvs_changes_apply`, src/kvs.c 277-284. -/
def chApplyGo (data : Bytes) : List Nat → KVS → Option KVS
  | a :: b :: d :: r, s =>
    if a < b ∧ b < d then
      (kvsSet s (cstrAt data a) ((data.drop b).take (d - b))).bind (chApplyGo data (d :: r))
    else none
  | [_, _], _ => none
  | _, s => some s

/-- `laik_kvs_changes_apply`, src/kvs.c 269-285. -/
def chApply (c : Changes) (s : KVS) : Option KVS :=
  if c.off.length = 0 then some s
  else if c.off.length % 2 = 1 ∧ 0 < c.data.length then chApplyGo c.data c.off s
  else none

/-- Master loop of `laik_mpi_sync`, src/backend-mpi.c 1142-1170, over the
journals (offsets and data) sent by processes 1, 2, ...  State: `src`, `dst`
and `recvd`.  Gives `dst`. -/
def syncLoop (q : List KEnt → List KEnt) : List (List Nat × Bytes) → Changes → Changes → Changes → Option Changes
  | [], _, dst, _ => some dst
  | (off, data) :: js, src, dst, recvd => do
    let recvd ← chSetSize recvd [] []
    let recvd ← chEnsureSize recvd off.length data.length
    if off.length = 0 then
      if data.length = 0 then syncLoop q js src dst recvd else none
    else if 0 < data.length then
      let recvd ← chSetSize recvd off data
      let recvd ← chSort q recvd
      let m ← chMerge src dst recvd
      syncLoop q js dst m recvd
    else none

/-- What a process other than 0 sends, src/backend-mpi.c 1091-1109. -/
def syncSend (s : KVS) : Option (List Nat × Bytes) :=
  let c := s.changes
  if (c.off.length = 0 ∨ c.off.length % 2 = 1) ∧
      (if 0 < c.off.length then 0 < c.data.length else c.data.length = 0) then
    some (c.off, c.data)
  else none

/-- Process 0 until sending, src/backend-mpi.c 1131-1175. -/
def syncMaster (q : List KEnt → List KEnt) (s : KVS) (js : List (List Nat × Bytes)) : Option Changes := do
  let own ← chSort q s.changes
  let dst ← syncLoop q js chInit own chInit
  if dst.off.length < dst.data.length then some dst else none

/-- What a process other than 0 does with the result, src/backend-mpi.c 1111-1127. -/
def syncRecv (s : KVS) (off : List Nat) (data : Bytes) : Option KVS :=
  if 0 < off.length then
    if 0 < data.length then do
      let c ← chEnsureSize s.changes off.length data.length
      let c ← chSetSize c off data
      chApply c { s with changes := c }
    else none
  else if data.length = 0 then some s else none

/-- End of `laik_kvs_sync`, src/kvs.c 453-464. -/
def syncEnd (q : List KEnt → List KEnt) (s : KVS) : Option KVS :=
  (chSetSize s.changes [] []).map fun c =>
    kvsSort q { s with inSync := false, changes := c, ent := s.ent.map fun e => { e with updated := false } }

/-- `none` if any process aborts. -/
def allSome {α} : List (Option α) → Option (List α)
  | [] => some []
  | none :: _ => none
  | some a :: l => (allSome l).map (a :: ·)

/-- `laik_kvs_sync` (src/kvs.c 445-465) called by all processes of the world of
the MPI backend: new state of every process, `none` if the process aborts.  All
abort with process 0 (MPI).  In process 0, the journal may hold other changes
when it is cleared at the end, which makes no difference. -/
def kvsSync (q : List KEnt → List KEnt) : List KVS → Option (List (Option KVS))
  | [] => some []
  | m :: ss => do
    let js ← allSome (ss.map fun s => syncSend { s with inSync := true })
    let dst ← syncMaster q { m with inSync := true } js
    some ((((chApply dst { m with inSync := true }).bind (syncEnd q))) ::
      ss.map fun s => (syncRecv { s with inSync := true } dst.off dst.data).bind (syncEnd q))

end Laik
