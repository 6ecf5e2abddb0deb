/-!
# Configuration of the TCP backend

What users of the configuration may expect, by the contents of the configuration file and
the order of events only: no objects, no counters.
-/

namespace Laik.Cf

/-- Events of a run.  `call now f`: some thread asks for the configuration at time `now`
(milliseconds); `f k` is what the `k`-th attempt to read the file would give, with `true`
if the file is a correct one (only of interest if there is no configuration yet);
`drop k`: the `k`-th of the references in use is given up; `load t c ok`: the update thread
`t` has read the file; `install t`: it puts the result into place. -/
inductive Ev (α : Type)
  | call (now : Nat) (f : Nat → α × Bool)
  | drop (k : Nat)
  | load (t : Nat) (c : α) (ok : Bool)
  | install (t : Nat)

/-- What the next user should get and what was read but not put into place yet. -/
structure Newest (α : Type) where
  cur : Option α
  pend : Option α

/-- First correct result among the attempts `i`, `i + 1`, …, `i + n - 1`. -/
def firstGood {α : Type} (f : Nat → α × Bool) : Nat → Nat → Option α
  | 0, _ => none
  | n + 1, i => if (f i).2 then some (f i).1 else firstGood f n (i + 1)

/-- The newest configuration: incorrect files never change it. -/
def newestStep {α : Type} (s : Newest α) : Ev α → Newest α
  | .call _ f => match s.cur with
    | some _ => s
    | none => { s with cur := firstGood f 11 0 }
  | .drop _ => s
  | .load _ c ok => { s with pend := if ok then some c else none }
  | .install _ => match s.pend with
    | some c => { cur := some c, pend := none }
    | none => s

def newest {α : Type} (evs : List (Ev α)) : Newest α :=
  evs.foldl newestStep { cur := none, pend := none }

/-- A value of a key, by what the typed reads of it give (`none`: not of this type). -/
structure Val where
  str : Option (List Char)
  bool : Option Bool
  int : Option Int
  dbl : Option Rat

/-- A configuration file: groups of keys with values, in order of the file. -/
abbrev KeyFile := List (String × List (String × Val))

/-- The value of a key of group "general". -/
def val (kf : KeyFile) (key : String) : Option Val :=
  (kf.lookup "general").bind (·.lookup key)

/-- Meaning of a truth value: the default if not there, else the value; `none` if it is not
a truth value. -/
def boolOf (kf : KeyFile) (key : String) (dflt : Bool) : Option Bool :=
  match val kf key with
  | none => some dflt
  | some v => v.bool

/-- Meaning of a number: negative ones mean "no limit". -/
def sizeOf (kf : KeyFile) (key : String) (dflt : Nat) : Option Nat :=
  match val kf key with
  | none => some dflt
  | some v => v.int.map fun i => if i < 0 then 2 ^ 64 - 1 else i.toNat

/-- Meaning of a time: not negative. -/
def timeOf (kf : KeyFile) (key : String) (dflt : Rat) : Option Rat :=
  match val kf key with
  | none => some dflt
  | some v => match v.dbl with
    | none => none
    | some t => if 0 ≤ t then some t else none

/-- Addresses: the values in group "addresses" in order of the file, whatever the names of
the keys, or the default if there are none. -/
def addrOf (kf : KeyFile) (dflt : List (List Char)) : Option (List (List Char)) :=
  match kf.lookup "addresses" with
  | none => some dflt
  | some [] => some dflt
  | some l => l.mapM fun p => p.2.str

end Laik.Cf
