import Verif.Model.Kvs
import Verif.Model.SpaceCodec
/-!
# Model of log output (`src/logging.c`)

Characters are numbers, texts are without the terminating 0. Results `none` stand for a
failed assert or a write beyond the end of a buffer.

Not modelled: formatting of a message by `vsnprintf` (a piece of a message is the text
formatted), the clock (minutes and the text of seconds are given), redirection to a file,
overflow of `int`.
-/

namespace Laik.Lg
open Laik

/-- Text as characters. -/
def txt (s : String) : Bytes := s.toList.map Char.toNat

/-- `%d` for numbers which are not negative. -/
def dec (n : Nat) : Bytes := (Codec.digits n).map Char.toNat

/-- `%0<w>d`. -/
def dec0 (w n : Nat) : Bytes := List.replicate (w - (dec n).length) 48 ++ dec n

/-- `%<w>d`. -/
def decB (w n : Nat) : Bytes := List.replicate (w - (dec n).length) 32 ++ dec n

/-- `%-<w>s`. -/
def strB (w : Nat) (s : Bytes) : Bytes := s ++ List.replicate (w - s.length) 32

/-- Static variables, src/logging.c 26-41 and 174-179. `inst` is the location ID of the
process if there is an instance. `buf` is the content of `current_logBuffer` up to `current_logPos`;
the buffer exists if `size` is not 0. `counter` and `lastCtr` are the static variables of `log_flush`
(272-273). `out` are the lines printed, `stopped` is set by `assert(0)` on panic. -/
structure Log where
  level : Nat
  pre : Nat
  inst : Option Nat
  loc : Option Bytes
  ctr : Nat
  fromL : Int
  toL : Int
  cur : Nat
  size : Nat
  buf : Bytes
  counter : Nat
  lastCtr : Nat
  out : List Bytes
  stopped : Bool
  deriving DecidableEq, Repr

/-- Start of the program: values of the static variables. -/
def Log.start : Log := ⟨4, 2, none, none, 0, -1, -1, 0, 0, [], 0, 0, [], false⟩

/-- `laik_log_begin`, src/logging.c 181-206: with the value returned. -/
def logBegin (s : Log) (l : Nat) : Option (Log × Bool) :=
  if l < s.level then some ({ s with cur := 0 }, false)
  else
    let go := some ({ s with cur := l, buf := [], size := if s.size = 0 then 1024 else s.size }, true)
    match s.inst with
    | none => go
    | some id =>
      if 0 ≤ s.fromL then
        if s.fromL ≤ s.toL then
          if (id : Int) < s.fromL ∨ s.toL < (id : Int) then some ({ s with cur := 0 }, false) else go
        else none
      else go

/-- `log_append`, src/logging.c 208-239, with the formatted text. -/
def logAppend (s : Log) (t : Bytes) : Option Log :=
  if s.cur = 0 then some s
  else if s.buf.length < s.size then
    if s.size - s.buf.length ≤ t.length then
      let size := if 2 * s.size < t.length + 1 then t.length + 1 else 2 * s.size
      if t.length < size - s.buf.length then some { s with size := size, buf := s.buf ++ t } else none
    else some { s with buf := s.buf ++ t }
  else none

/-- `laik_log_inc`, src/logging.c 251-255. -/
def logInc (s : Log) : Log := { s with ctr := s.ctr + 1 }

/-- Name of a log level, src/logging.c 263-269. -/
def levelStr (l : Nat) : Option Bytes :=
  if l = 3 then some (txt "Warning") else if l = 4 then some (txt "ERROR") else if l = 5 then some (txt "PANIC") else none

/-- Start of line number `k` of a message, src/logging.c 304. -/
def hdrMark (k : Nat) : Bytes := if k = 1 then txt "== " else txt ".. "

/-- Name of the process, counters and time, src/logging.c 305-319; `mins` and `secs` is the time, `%06.3f` for seconds. -/
def hdrProc (s : Log) (mins : Nat) (secs : Bytes) (k : Nat) : Bytes :=
  match s.inst with
  | none => strB 7 (s.loc.getD []) ++ txt ": "
  | some id =>
    if s.pre = 1 then txt "L" ++ dec0 2 id ++ txt " | "
    else if s.pre = 2 then
      txt "LAIK-" ++ dec0 4 s.ctr ++ txt "-L" ++ dec0 2 id ++ txt " " ++ dec0 4 s.counter ++ txt "." ++ dec0 2 k ++
        txt " " ++ decB 2 mins ++ txt ":" ++ secs ++ txt " | "
    else []

/-- Level of the message, src/logging.c 320-322. -/
def hdrLevel (cur k : Nat) : Bytes :=
  match levelStr cur with
  | none => []
  | some n => strB 7 (if k = 1 then n else []) ++ txt ": "

/-- Prefix of line number `k` of a message, src/logging.c 303-322. -/
def header (s : Log) (mins : Nat) (secs : Bytes) (k : Nat) : Bytes :=
  hdrMark k ++ hdrProc s mins secs k ++ hdrLevel s.cur k

/-- Loop in src/logging.c 329: position after blanks. -/
def skip (b : Bytes) (off : Nat) : Nat := off + ((b.drop off).takeWhile (· == 32)).length

/-- Loop for the end of a line, src/logging.c 340-355: position of the end (`off`) and `at_newline`. -/
def scan (b : Bytes) (spaces off1 off lastBreak : Nat) : Nat × Bool :=
  if off < b.length then
    if b.getD off 0 = 10 then (off, true)
    else if b.getD off 0 = 32 then
      if 100 < spaces + (off - off1) then (if lastBreak ≠ 0 then lastBreak else off, false)
      else scan b spaces off1 (off + 1) off
    else scan b spaces off1 (off + 1) lastBreak
  else (off, false)
termination_by b.length - off

/-- Loop over lines, src/logging.c 299-364, with `fuel` for the number of iterations. `off1`, `spaces`, `nl`
(`at_newline`) and `lc` (`line_counter`) are the variables of the loop. -/
def lines (s : Log) (mins : Nat) (secs : Bytes) (b : Bytes) : (fuel off1 spaces : Nat) → (nl : Bool) → (lc : Nat) → Option (List Bytes)
  | 0, _, _, _, _ => none
  | fuel + 1, off1, spaces, nl, lc =>
    if off1 < b.length then
      let off1' := if nl then skip b off1 else off1
      let spaces := if nl then off1' - off1 else spaces
      let r := scan b spaces off1' off1' 0
      let l := header s mins secs (lc + 1) ++ List.replicate (if nl then spaces else spaces + 4) 32 ++ (b.drop off1').take (r.1 - off1') ++ [10]
      if l.length < 250 then
        (lines s mins secs b fuel (if r.1 < b.length then r.1 + 1 else r.1) spaces r.2 (lc + 1)).map (l :: ·)
      else none
    else some []

/-- Counter of messages, reset if the counter for prefixes changed, src/logging.c 275-279. -/
def nextCounter (s : Log) : Nat := if s.lastCtr ≠ s.ctr then 1 else s.counter + 1

/-- `log_flush`, src/logging.c 257-369. -/
def logFlush (s : Log) (mins : Nat) (secs : Bytes) : Option Log :=
  if s.cur = 0 ∨ s.buf = [] then some s
  else
    let s := { s with counter := nextCounter s, lastCtr := s.ctr }
    (lines s mins secs s.buf (s.buf.length + 1) 0 0 true 0).map fun ls =>
      { s with buf := [], out := s.out ++ ls, stopped := s.stopped || s.cur == 5 }

/-- `laik_log`, src/logging.c 385-395. -/
def logMsg (s : Log) (l : Nat) (t : Bytes) (mins : Nat) (secs : Bytes) : Option Log :=
  (logBegin s l).bind fun r => if r.2 then (logAppend r.1 t).bind fun s => logFlush s mins secs else some r.1

/-- A message built step by step: `laik_log_begin`, `laik_log_append` for each piece (`laik_log_flush` with a text does one
more), `laik_log_flush`, src/logging.c 181-249, 371-383. -/
def logSteps (s : Log) (l : Nat) (ts : List Bytes) (mins : Nat) (secs : Bytes) : Option Log :=
  (logBegin s l).bind fun r => (ts.foldlM logAppend r.1).bind fun s => logFlush s mins secs

/-! ### Sequences of messages -/

/-- What a program does: `laik_log_inc` and `laik_log`, with the time. -/
inductive Op
  | inc
  | msg (l : Nat) (t : Bytes) (mins : Nat) (secs : Bytes)

def Op.run (s : Log) : Op → Option Log
  | .inc => some (logInc s)
  | .msg l t mins secs => logMsg s l t mins secs

/-- Several operations: the lines printed by each. -/
def runOps : List Op → Log → Option (Log × List (List Bytes))
  | [], s => some (s, [])
  | o :: os, s => (o.run s).bind fun s' => (runOps os s').map fun r => (r.1, s'.out.drop s.out.length :: r.2)

/-! ### Environment variable -/

/-- `atoi`, for values which fit into an `int`. -/
def atoi (s : Bytes) : Int := ((Codec.scanInt (s.map Char.ofNat)).map (·.1)).getD 0

/-- `index`: the text from the first occurrence of a character. -/
def index (c : Nat) : Bytes → Option Bytes
  | [] => none
  | x :: s => if x = c then some (x :: s) else index c s

/-- Options for prefixes, src/logging.c 53-54: with the rest of the text. -/
def envPre (s : Log) (str : Bytes) : Log × Bytes :=
  let r := if str.head? = some 110 then ({ s with pre := 0 }, str.drop 1) else (s, str)
  if r.2.head? = some 115 then ({ r.1 with pre := 1 }, r.2.drop 1) else r

/-- Level and location IDs, src/logging.c 56-82; `none` is `exit(1)`. -/
def envLevel (s : Log) (str : Bytes) : Option Log :=
  if 0 < atoi str then
    let s := { s with level := (atoi str).toNat }
    match index 58 str with
    | none => some s
    | some p =>
      let p := p.drop 1
      match index 45 p with
      | none => some { s with fromL := atoi p, toL := atoi p }
      | some p' => some { s with fromL := atoi p, toL := atoi (p'.drop 1) }
  else none

/-- Parsing of `LAIK_LOG` in `laik_log_init_internal`, src/logging.c 51-83. -/
def initEnv (s : Log) (str : Bytes) : Option Log := envLevel (envPre s str).1 (envPre s str).2

end Laik.Lg
