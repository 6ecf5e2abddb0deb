/-!
# Profiling: measured times and files (`src/profiling.c`)

Instances are numbers.  Times are natural numbers (microseconds) instead of `double`.
-/

namespace Laik.Pf

/-- Ways to leave the rules of C: access to the freed controller of a finalized instance,
null pointer to an instance, null pointer as file, access to a closed file. -/
inductive Fault
  | freed | noInst | noFile | closedFile
  deriving DecidableEq, Repr

/-- `struct _Laik_Profiling_Controller`, include/laik/profiling-internal.h 25-38, without
`filename` (written only) and timers for the total and backend time (the first not used,
the second used within one function only). -/
structure Ctrl where
  doProf : Bool := false
  userActive : Bool := false
  timerUser : Nat := 0
  timeTotal : Nat := 0
  timeBackend : Nat := 0
  timeUser : Nat := 0
  file : Option Nat := none
  deriving DecidableEq, Repr

/-- All state: `laik_profinst` (src/profiling.c 75), controllers (zero after
`laik_init_profiling`, 79-85), instances finalized, files: number opened up to now,
which are open, and lines written: file, total, backend and user time
(guid, phase and iteration are left out). -/
structure St where
  cur : Option Nat := none
  ctrl : Nat → Ctrl := fun _ => {}
  dead : List Nat := []
  opened : Nat := 0
  isOpen : List Nat := []
  lines : List (Nat × Nat × Nat × Nat) := []

/-- Change of the controller of an instance. -/
def St.set (x : St) (i : Nat) (c : Ctrl) : St := { x with ctrl := fun j => if j = i then c else x.ctrl j }

/-- Calls which matter.  Times are results of `laik_wtime`; `exec` is the part of a switch
with times before and after; `ok` tells whether the file can be opened. -/
inductive Op
  | enable (i : Option Nat)
  | reset (i : Nat)
  | userStart (i : Nat) (now : Nat)
  | userStop (i : Nat) (now : Nat)
  | enableFile (i : Option Nat) (ok : Bool)
  | exec (i : Nat) (t1 t2 : Nat)
  | getTime
  | writeout
  | closeFile (i : Nat)
  | printf
  | finalize (i : Nat)
  deriving DecidableEq, Repr

/-- Access to the controller of an instance. -/
def St.get (x : St) (i : Nat) : Except Fault Ctrl := if i ∈ x.dead then .error .freed else .ok (x.ctrl i)

/-- Write to a file. -/
def St.write (x : St) : Option Nat → Except Fault Unit
  | none => .error .noFile
  | some f => if f ∈ x.isOpen then .ok () else .error .closedFile

/-- Profiling ends for the current instance, same code in src/profiling.c 116-119 and
177-180. -/
def St.leave (x : St) : Except Fault St :=
  match x.cur with
  | none => .ok x
  | some j => do
    let c ← x.get j
    return x.set j { c with doProf := false }

/-- `laik_enable_profiling`, src/profiling.c 114-127. -/
def enable (x : St) (i : Option Nat) : Except Fault St :=
  if x.cur.isSome ∧ x.cur = i then .ok x
  else do
    let y ← x.leave
    match i with
    | none => return { y with cur := none }
    | some j =>
      let c ← y.get j
      return { y.set j { c with doProf := true, timeBackend := 0, timeTotal := 0, timeUser := 0 } with cur := some j }

/-- `laik_reset_profiling`, src/profiling.c 130-142. -/
def reset (x : St) (i : Nat) : Except Fault St :=
  if x.cur = some i then do
    let c ← x.get i
    if c.doProf then return x.set i { c with timeBackend := 0, timeTotal := 0, timeUser := 0 } else return x
  else .ok x

/-- `laik_profile_user_start`, src/profiling.c 145-155. -/
def userStart (x : St) (i now : Nat) : Except Fault St :=
  if x.cur = some i then do
    let c ← x.get i
    if c.doProf then return x.set i { c with timerUser := now, userActive := true } else return x
  else .ok x

/-- `laik_profile_user_stop`, src/profiling.c 158-172. -/
def userStop (x : St) (i now : Nat) : Except Fault St :=
  if x.cur = some i then do
    let c ← x.get i
    if c.doProf && c.userActive then
      return x.set i { c with timeUser := now - c.timerUser, timerUser := 0, userActive := false }
    else return x
  else .ok x

/-- `laik_enable_profiling_file`, src/profiling.c 175-200. -/
def enableFile (x : St) (i : Option Nat) (ok : Bool) : Except Fault St :=
  if x.cur.isSome ∧ x.cur = i then .ok x
  else do
    let y ← x.leave
    match i with
    | none => return { y with cur := none }
    | some j =>
      let c ← y.get j
      if ok then
        let z := { y with cur := some j, opened := y.opened + 1, isOpen := y.opened :: y.isOpen }
        return z.set j { c with doProf := true, timeBackend := 0, timeTotal := 0, file := some y.opened }
      else .error .noFile

/-- Execution of actions with measurement, src/data.c 842-848. -/
def exec (x : St) (i t1 t2 : Nat) : Except Fault St := do
  let c ← x.get i
  if c.doProf then return x.set i { c with timeBackend := c.timeBackend + (t2 - t1) } else return x

/-- `laik_get_total_time` and `laik_get_backend_time`, src/profiling.c 203-216: total and
backend time. -/
def times (x : St) : Except Fault (Nat × Nat) :=
  match x.cur with
  | none => .ok (0, 0)
  | some i => do
    let c ← x.get i
    return (c.timeTotal, c.timeBackend)

/-- `laik_writeout_profile`, src/profiling.c 222-236. -/
def writeout (x : St) : Except Fault St :=
  match x.cur with
  | none => .ok x
  | some i => do
    let c ← x.get i
    match c.file with
    | none => return x
    | some f =>
      x.write (some f)
      return { x with lines := x.lines ++ [(f, c.timeTotal, c.timeBackend, c.timeUser)] }

/-- `laik_close_profiling_file`, src/profiling.c 239-247. -/
def closeFile (x : St) (i : Nat) : Except Fault St := do
  let c ← x.get i
  match c.file with
  | none => return x
  | some f =>
    x.write (some f)
    return ({ x with isOpen := x.isOpen.erase f } : St).set i { c with file := none }

/-- `laik_profile_printf`, src/profiling.c 250-258. -/
def printf (x : St) : Except Fault St :=
  match x.cur with
  | none => .error .noInst
  | some i => do
    let c ← x.get i
    match c.file with
    | none => return x
    | some f =>
      x.write (some f)
      return x

/-- End of `laik_finalize`, src/core.c 178-179, with `laik_free_profiling`,
src/profiling.c 107-110. -/
def finalize (x : St) (i : Nat) : Except Fault St := do
  let y ← closeFile x i
  return { y with dead := i :: y.dead }

/-- One call. -/
def step (x : St) : Op → Except Fault St
  | .enable i => enable x i
  | .reset i => reset x i
  | .userStart i now => userStart x i now
  | .userStop i now => userStop x i now
  | .enableFile i ok => enableFile x i ok
  | .exec i t1 t2 => exec x i t1 t2
  | .getTime => (times x).map fun _ => x
  | .writeout => writeout x
  | .closeFile i => closeFile x i
  | .printf => printf x
  | .finalize i => finalize x i

/-- A sequence of calls. -/
def run (x : St) : List Op → Except Fault St
  | [] => .ok x
  | o :: l => (step x o).bind fun y => run y l

end Laik.Pf
