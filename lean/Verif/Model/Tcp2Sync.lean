import Verif.Model.Kvs
import Verif.Model.SpaceCodec
/-!
# Model of the synchronization of key-value stores over the TCP2 backend (`src/backend-tcp2.c`)

Processes with LIDs 0 .. n-1 run `laik_kvs_sync` (`src/kvs.c` 445-465) for a
given sequence of stores.  Every process has its own state; lines of text are
sent over a FIFO connection for every ordered pair of processes.  Outer results
`none` are used for steps not possible, inner ones for a failed assert, an
abort, or undefined behaviour.  Bytes are numbers.

Not modelled: the LIDs of processes removed in a resize (which still are asked
by process 0), broken connections, limits of socket buffers (a `write` never
blocks), commands other than `kvs`, overflow of `int` counters.
-/

namespace Laik.Ks
open Laik

/-- Text as bytes. -/
def txt (s : String) : Bytes := s.toList.map Char.toNat

/-! ### Formatting and scanning -/

/-- C library `isspace`. -/
def isWs (c : Nat) : Bool := c == 32 || (9 ≤ c && c ≤ 13)

/-- `%<n>s` of `sscanf`: word and rest; at least one character is needed. -/
def scanWord (n : Nat) (s : Bytes) : Option (Bytes × Bytes) :=
  let s := s.dropWhile isWs
  let w := (s.takeWhile (fun c => !isWs c)).take n
  if w = [] then none else some (w, s.drop w.length)

/-- `%<n>[^\n]` of `sscanf`; at least one character is needed. -/
def scanLine (n : Nat) (s : Bytes) : Option Bytes :=
  let w := (s.takeWhile (fun c => c != 10)).take n
  if w = [] then none else some w

/-- `%d` of `sscanf`, as `%ld` in `Codec.scanInt`. -/
def scanD (s : Bytes) : Option Int := (Codec.scanInt (s.map Char.ofNat)).map (·.1)

/-- A buffer for a command, `char msg[100]`, src/backend-tcp2.c 2387: text
written by `sprintf` with the terminating 0. -/
def fits (m : Bytes) : Option Bytes := if m.length + 1 ≤ 100 then some m else none

/-- `"kvs allow %s"`, src/backend-tcp2.c 2438. -/
def allowMsg (name : Bytes) : Option Bytes := fits (txt "kvs allow " ++ name)

/-- `"kvs changes %d"`, src/backend-tcp2.c 2411 and 2455; an `int` takes at most
11 characters, so this always fits. -/
def changesMsg (count : Nat) : Bytes := txt "kvs changes " ++ (Codec.digits count).map Char.toNat

/-- The C string in a value: up to the first 0, which must exist. -/
def cstr (v : Bytes) : Option Bytes := if 0 ∈ v then some (v.takeWhile (· != 0)) else none

/-- `"kvs data %s %s"`, src/backend-tcp2.c 2415-2416 and 2460-2461.  Printing
the null pointer of a removed entry is undefined. -/
def dataMsg (e : KEnt) : Option Bytes :=
  (e.value.bind cstr).bind fun v => fits (txt "kvs data " ++ (e.key ++ (32 :: v)))

/-- `send_cmd`, src/backend-tcp2.c 631-666, with the receive buffer of the peer
(`process_rbuf`, 1534-1587): a line feed in the command ends a line, CR becomes a
blank, Ctrl-D closes the connection, and a line must not start with `B`.  How
bytes are cut into lines is modelled in `Model/TcpFrame.lean`. -/
def wireLines (m : Bytes) : Option (List Bytes) :=
  let ls := ((if m.getLast? = some 10 then m.dropLast else m).splitOn 10).map fun l =>
    l.map fun c => if c = 13 then 32 else c
  if 4 ∈ m ∨ ls.any (fun l => l.head? == some 66) then none else some ls

/-! ### State -/

/-- Where a process is in its program: outside of a synchronization, in the wait
loop of src/backend-tcp2.c 2406-2407, in that of 2427-2428, before the body of
the loop in 2437 for a LID, and in its wait loop (2444-2445). -/
inductive PC
  | idle
  | allow
  | wait
  | ask (lid : Nat)
  | collect (lid : Nat)
  deriving DecidableEq, Repr

/-- State of a process: number of finished synchronizations, position, whether
it is inside of `run_loop`, lines still to be written (with receiver), its stores,
and parts of `InstData` (src/backend-tcp2.c 295-302): `kvs`, `kvs_name`,
`kvs_changes`, `kvs_received`, `exit`. -/
structure Proc where
  rd : Nat
  pc : PC
  loop : Bool
  out : List (Nat × Bytes)
  st : Nat → KVS
  kvs : Option Nat
  name : Option Bytes
  chg : Int
  rcv : Nat
  exit : Bool

/-- State of the system. `chan p q`: lines written by `p`, not yet read by `q`. -/
structure Sys where
  proc : Nat → Proc
  chan : Nat → Nat → List Bytes

/-- Change of a process before a synchronization: set a string value or remove
an entry. -/
inductive Upd
  | sets (key str : Bytes)
  | set (key val : Bytes)
  | remove (key : Bytes)
  deriving DecidableEq, Repr

/-- A synchronization in the program: the store used, and the changes done before
by each process.  Changes of other stores before do not matter. -/
structure Round where
  store : Nat
  upd : Nat → List Upd

/-- The program: number of processes, names of the stores, synchronizations. -/
structure Cfg where
  n : Nat
  nm : Nat → Bytes
  rounds : List Round
  q : List KEnt → List KEnt

/-- `laik_kvs_sets`, `laik_kvs_set`, `laik_kvs_remove`. -/
def runUpd (s : KVS) : Upd → Option KVS
  | .sets k v => kvsSets s k v
  | .set k v => kvsSet s k v
  | .remove k => (kvsRemove s k).map (·.2)

def runUpds : List Upd → KVS → Option KVS
  | [], s => some s
  | u :: l, s => (runUpd s u).bind (runUpds l)

/-- Replace a store. -/
def setStore (P : Proc) (i : Nat) (s : KVS) : Proc := { P with st := fun j => if j = i then s else P.st j }

/-! ### Handlers -/

/-- `got_kvs_allow`, src/backend-tcp2.c 1312-1330. -/
def gotAllow (P : Proc) (lid : Nat) (m : Bytes) : Option Proc :=
  if lid ≠ 0 then some P
  else
    match (scanWord 20 m).bind (fun x => scanWord 29 x.2) with
    | none => some P
    | some (name, _) =>
      if P.name = none then some { P with name := some name, exit := true } else none

/-- `got_kvs_changes`, src/backend-tcp2.c 1332-1348.  The name of the store is
read for the log output. -/
def gotChanges (P : Proc) (m : Bytes) : Option Proc :=
  match (scanWord 20 m).bind (fun x => scanD x.2) with
  | none => some P
  | some c =>
    if P.kvs ≠ none ∧ P.chg = -1 ∧ P.rcv = 0 then
      some { P with chg := c, exit := if c = 0 then true else P.exit }
    else none

/-- `e->updated = true` for the entry with the key, src/backend-tcp2.c 1364. -/
def markUpd (s : KVS) (key : Bytes) : KVS :=
  { s with ent := s.ent.map fun e => if e.key = key then { e with updated := true } else e }

/-- `got_kvs_data`, src/backend-tcp2.c 1350-1371. -/
def gotData (P : Proc) (m : Bytes) : Option Proc :=
  match (scanWord 20 m).bind (fun x => (scanWord 30 x.2).bind fun y =>
      (scanLine 100 (y.2.dropWhile isWs)).map fun v => (y.1, v)) with
  | none => some P
  | some (key, value) =>
    match P.kvs with
    | none => none
    | some i =>
      if 0 < P.chg ∧ (P.rcv : Int) < P.chg then
        (kvsSets (P.st i) key value).map fun s =>
          let P := setStore P i (markUpd s key)
          { P with rcv := P.rcv + 1, exit := if ((P.rcv + 1 : Nat) : Int) = P.chg then true else P.exit }
      else none

/-- `if (*msg == c) msg++`. -/
def skipC (c : Nat) : Bytes → Bytes
  | [] => []
  | a :: l => if a = c then l else a :: l

/-- `got_kvs`, src/backend-tcp2.c 1374-1390, for a message starting with `k`. -/
def gotKvs (P : Proc) (lid : Nat) (m : Bytes) : Option Proc :=
  let m := skipC 32 (skipC 115 (skipC 118 m.tail))
  if m.head? = some 97 then gotAllow P lid m
  else if m.head? = some 99 then gotChanges P m
  else if m.head? = some 100 then gotData P m
  else some P

/-- `got_cmd`, src/backend-tcp2.c 1472-1518; other commands are not modelled. -/
def gotCmd (P : Proc) (lid : Nat) (m : Bytes) : Option Proc :=
  if m.head? = some 107 then gotKvs P lid m else some P

/-! ### `tcp2_sync`, src/backend-tcp2.c 2385-2468 -/

/-- Entries marked as updated. -/
def updated (s : KVS) : List KEnt := s.ent.filter (·.updated)

/-- Commands sent for the changes, in lines: src/backend-tcp2.c 2411-2418 and
2449-2464.  The count of a process other than 0 is taken in 2390-2394, but its
store is not changed until here: data lines are not accepted then. -/
def changeLines (s : KVS) : Option (List Bytes) :=
  (allSome (wireLines (changesMsg (updated s).length) ::
    (updated s).map fun e => (dataMsg e).bind wireLines)).map List.flatten

/-- Changes of the application, start of `laik_kvs_sync` and of `tcp2_sync` up
to line 2405 (2436 in process 0). -/
def enter (c : Cfg) (p : Nat) (P : Proc) : Option (Option Proc) :=
  match c.rounds[P.rd]? with
  | none => none
  | some r =>
    if P.pc = .idle then some <|
      (runUpds (r.upd p) (P.st r.store)).bind fun s =>
        if P.kvs = none ∧ (P.name = none ∨ P.name = some (c.nm r.store)) then
          some { setStore P r.store { s with inSync := true } with
            kvs := some r.store, loop := false, pc := if p = 0 then .ask 1 else .allow }
        else none
    else none

/-- End of `tcp2_sync` and `laik_kvs_sync`, with lines still to write. -/
def finish (c : Cfg) (P : Proc) (i : Nat) (out : List (Nat × Bytes)) : Option Proc :=
  (syncEnd c.q (P.st i)).map fun s =>
    { setStore P i s with kvs := none, rd := P.rd + 1, pc := .idle, loop := false, out := out }

/-- `kvs_changes < 0 || kvs_received < kvs_changes`. -/
def waiting (P : Proc) : Bool := P.chg < 0 || (P.rcv : Int) < P.chg

/-- Next part of `tcp2_sync` up to the next wait: from the head of a `while` loop
around `run_loop`, if not inside of it, or with `exit` set.  Lines to write are put
into `out`, and are written before anything else happens. -/
def go (c : Cfg) (P : Proc) : Option (Option Proc) :=
  match c.rounds[P.rd]? with
  | none => none
  | some r =>
    let i := r.store
    if P.loop = true ∧ P.exit = false then none
    else
      let again := some (some { P with loop := true, exit := false })
      match P.pc with
      | .idle => none
      | .allow =>
        match P.name with
        | none => again
        | some nm => some <|
          if nm = c.nm i then
            (changeLines (P.st i)).map fun ls =>
              { P with out := ls.map fun l => (0, l), name := none, chg := -1, rcv := 0, pc := .wait, loop := false }
          else none
      | .wait => if waiting P then again else some (finish c P i [])
      | .ask lid => some <|
        if lid < c.n then
          ((allowMsg (c.nm i)).bind wireLines).map fun ls =>
            { P with out := ls.map fun l => (lid, l), chg := -1, rcv := 0, pc := .collect lid, loop := false }
        else
          (changeLines (P.st i)).bind fun ls =>
            finish c P i (ls.flatMap fun l => (List.range' 1 (c.n - 1)).map fun lid => (lid, l))
      | .collect lid =>
        if waiting P then again else some (some { P with pc := .ask (lid + 1), loop := false })

/-! ### Steps -/

def upd1 {α : Type} (f : Nat → α) (p : Nat) (a : α) : Nat → α := fun x => if x = p then a else f x

def upd2 {α : Type} (f : Nat → Nat → α) (p q : Nat) (a : α) : Nat → Nat → α :=
  fun x y => if x = p ∧ y = q then a else f x y

/-- What may happen: a process does changes and starts a synchronization, writes
a line, handles a line from another process, goes on in `tcp2_sync`. -/
inductive Act
  | enter (p : Nat)
  | write (p : Nat)
  | handle (p q : Nat)
  | go (p : Nat)
  deriving DecidableEq, Repr

/-- Steps of the system.  Lines are handled inside of `run_loop` of `tcp2_sync`,
also after `exit` was set (as several lines may have arrived), and between
synchronizations (there are other calls of `run_loop`). -/
def act (c : Cfg) (g : Sys) : Act → Option (Option Sys)
  | .enter p =>
    if p < c.n ∧ (g.proc p).out = [] then
      (enter c p (g.proc p)).map fun r => r.map fun P => { g with proc := upd1 g.proc p P }
    else none
  | .write p =>
    if p < c.n then
      match (g.proc p).out with
      | [] => none
      | (q, l) :: o =>
        some (some ⟨upd1 g.proc p { g.proc p with out := o }, upd2 g.chan p q (g.chan p q ++ [l])⟩)
    else none
  | .handle p q =>
    if p < c.n ∧ q < c.n ∧ (g.proc p).out = [] ∧ ((g.proc p).loop = true ∨ (g.proc p).pc = .idle) then
      match g.chan q p with
      | [] => none
      | l :: ls => some ((gotCmd (g.proc p) q l).map fun P => ⟨upd1 g.proc p P, upd2 g.chan q p ls⟩)
    else none
  | .go p =>
    if p < c.n ∧ (g.proc p).out = [] then
      (go c (g.proc p)).map fun r => r.map fun P => { g with proc := upd1 g.proc p P }
    else none

/-- Initial state: empty stores (src/backend-tcp2.c 1731-1734 for the other
fields). -/
def proc0 : Proc := ⟨0, .idle, false, [], fun _ => kvsNew, none, none, 0, 0, false⟩

def init : Sys := ⟨fun _ => proc0, fun _ _ => []⟩

def Step (c : Cfg) (g g' : Sys) : Prop := ∃ a, act c g a = some (some g')

inductive Reach (c : Cfg) : Sys → Prop
  | init : Reach c init
  | step {g g'} : Reach c g → Step c g g' → Reach c g'

/-- Run of the given actions: `none` if one of them is not possible or fails. -/
def run (c : Cfg) : List Act → Sys → Option Sys
  | [], g => some g
  | a :: as, g => (act c g a).join.bind (run c as)

theorem run_reach {c : Cfg} : ∀ {as : List Act} {g g' : Sys}, Reach c g → run c as g = some g' → Reach c g'
  | [], g, g', h, e => by
    simp only [run, Option.some.injEq] at e
    exact e ▸ h
  | a :: as, g, g', h, e => by
    simp only [run, Option.bind_eq_some_iff] at e
    obtain ⟨g1, h1, h2⟩ := e
    rw [Option.join_eq_some_iff] at h1
    exact run_reach (.step h ⟨a, h1⟩) h2

end Laik.Ks
