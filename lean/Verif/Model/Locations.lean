import Verif.Model.Kvs
import Verif.Model.SpaceCodec
/-!
# Location strings of processes (`src/core.c` 633-703)

The strings are exchanged with a key-value store "location" whose callbacks keep
an array for direct access.  `none` stands for a failed assert, an access outside
of the array or another end of the program.  Simplifications: the pointers in the
array are modelled as copies of the strings they point to (a value in the store is
only replaced in a synchronization, which then calls the callback for the new one),
location IDs are natural numbers, logging is left out.
-/

namespace Laik.Lc

open Laik

/-! ## The key-value store with callbacks -/

section Callbacks

variable {A : Type} (u : Bytes → Bytes → A → Option A)

/-- Test at the begin of `laik_kvs_set`, src/kvs.c 373-379: the value is already in
the store. -/
def kvsSame (s : KVS) (key value : Bytes) : Bool :=
  match kvsEntry s key with
  | some (some i) =>
    match (s.ent[i]?).bind (·.value) with
    | some old => memcmpEq old value == some true
    | none => false
  | _ => false

/-- `laik_kvs_set`, src/kvs.c 362-435, with the callbacks for created and changed
entries (src/kvs.c 416-427; both are the same function `u`, src/core.c 678-680), which
are called in a synchronization only.  `A` is the memory changed by the callback. -/
def kvsSetCb (p : KVS × A) (key value : Bytes) : Option (KVS × A) :=
  (kvsSet p.1 key value).bind fun s =>
    if p.1.inSync && !kvsSame p.1 key value then (u key value p.2).map fun a => (s, a) else some (s, p.2)

/-- Loop of `laik_kvs_changes_apply`, src/kvs.c 277-284. -/
def chApplyGoCb (data : Bytes) : List Nat → KVS × A → Option (KVS × A)
  | a :: b :: d :: r, p =>
    if a < b ∧ b < d then
      (kvsSetCb u p (cstrAt data a) ((data.drop b).take (d - b))).bind (chApplyGoCb data (d :: r))
    else none
  | [_, _], _ => none
  | _, p => some p

/-- `laik_kvs_changes_apply`, src/kvs.c 269-285. -/
def chApplyCb (c : Changes) (p : KVS × A) : Option (KVS × A) :=
  if c.off.length = 0 then some p
  else if c.off.length % 2 = 1 ∧ 0 < c.data.length then chApplyGoCb u c.data c.off p
  else none

/-- What a process other than 0 does with the result, src/backend-mpi.c 1111-1127. -/
def syncRecvCb (p : KVS × A) (off : List Nat) (data : Bytes) : Option (KVS × A) :=
  if 0 < off.length then
    if 0 < data.length then do
      let c ← chEnsureSize p.1.changes off.length data.length
      let c ← chSetSize c off data
      chApplyCb u c ({ p.1 with changes := c }, p.2)
    else none
  else if data.length = 0 then some p else none

/-- End of `laik_kvs_sync`, src/kvs.c 453-464. -/
def syncEndCb (q : List KEnt → List KEnt) (p : KVS × A) : Option (KVS × A) := (syncEnd q p.1).map fun s => (s, p.2)

/-- `laik_kvs_sync` (src/kvs.c 445-465) called by all processes of the world of the
MPI backend, as `kvsSync`. -/
def kvsSyncCb (q : List KEnt → List KEnt) : List (KVS × A) → Option (List (Option (KVS × A)))
  | [] => some []
  | m :: ss => do
    let js ← allSome (ss.map fun p => syncSend { p.1 with inSync := true })
    let dst ← syncMaster q { m.1 with inSync := true } js
    some (((chApplyCb u dst ({ m.1 with inSync := true }, m.2)).bind (syncEndCb q)) ::
      ss.map fun p => (syncRecvCb u ({ p.1 with inSync := true }, p.2) dst.off dst.data).bind (syncEndCb q))

end Callbacks

/-! ## Locations -/

/-- `locationkey`, src/core.c 642-647: `snprintf` into 10 bytes keeps 9 characters. -/
def locKey (lid : Nat) : Bytes := ((Codec.digits lid).map Char.toNat).take 9

/-- C library `atoi` for a text without spaces and sign. -/
def atoi (k : Bytes) : Nat := (k.takeWhile (fun c => 48 ≤ c ∧ c ≤ 57)).foldl (fun a c => 10 * a + (c - 48)) 0

/-- `location` (with the size it was allocated with as length; entries `none` are null pointers)
and `locations` in `struct _Laik_Instance`, include/laik/core-internal.h 60 and 77-79. -/
structure LocArr where
  locations : Nat
  arr : List (Option Bytes)
  deriving DecidableEq, Repr

/-- `update_location`, src/core.c 649-656, for an entry with `key` and `value`. -/
def updLoc (key value : Bytes) (a : LocArr) : Option LocArr :=
  if atoi key < a.locations ∧ atoi key < a.arr.length then
    some { a with arr := a.arr.set (atoi key) (some (value.takeWhile (· ≠ 0))) }
  else none

/-- Parts of `struct _Laik_Instance` for locations; `store` is `none` before the
first call of `laik_sync_location` (then `location` is a null pointer). -/
structure LocInst where
  mem : LocArr
  store : Option KVS
  deriving DecidableEq, Repr

/-- Instance for `n` locations, `laik_new_instance`, src/core.c 213-219. -/
def locNew (n : Nat) : LocInst := ⟨⟨n, []⟩, none⟩

/-- A process: its instance, location ID and location string. -/
abbrev LocProc := LocInst × Nat × Bytes

/-- `laik_sync_location`, src/core.c 668-680: creation of store and array. -/
def locInit (i : LocInst) : KVS × LocArr :=
  match i.store with
  | some s => (s, i.mem)
  | none => (kvsNew, { i.mem with arr := List.replicate i.mem.locations none })

/-- `laik_sync_location`, src/core.c 682-689: own location. -/
def locOwn (lid : Nat) (loc : Bytes) (p : KVS × LocArr) : Option (KVS × LocArr) :=
  if lid < p.2.arr.length then
    (kvsSetCb updLoc (p.1, { p.2 with arr := p.2.arr.set lid (some loc) }) (locKey lid) (loc ++ [0]))
  else none

/-- `laik_sync_location`, src/core.c 666-691, called by all processes of the world of
the MPI backend.  `none` if any process ends. -/
def locSync (q : List KEnt → List KEnt) (ps : List LocProc) : Option (List LocInst) := do
  let ss ← allSome (ps.map fun p => locOwn p.2.1 p.2.2 (locInit p.1))
  let r ← kvsSyncCb updLoc q ss
  let r ← allSome r
  some (r.map fun p => ⟨p.2, some p.1⟩)

/-- `laik_group_location`, src/core.c 693-703, for a group with location IDs `lids`.
The outer `none` stands for a failed assert or wrong access. -/
def groupLocation (i : LocInst) (lids : List Nat) (id : Nat) : Option (Option Bytes) :=
  match i.store with
  | none => some none
  | some _ => (lids[id]?).bind fun lid => if lid < i.mem.locations then i.mem.arr[lid]? else none

/-- The number of locations changes with a resize, src/backend-tcp2.c 2611 and 2804. -/
def locResize (i : LocInst) (n : Nat) : LocInst := { i with mem := { i.mem with locations := n } }

end Laik.Lc
