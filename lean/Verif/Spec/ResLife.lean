/-!
# Which calls on a container with reservations are allowed

By the calls done before only (newest first), without memory or pointers.
-/

namespace Laik.Rl

/-- Calls for one container in one process.  Reservations and prepared sequences are
numbered in order of creation.  `keep`: data flow is "preserve". -/
inductive Call (V : Type)
  | new
  | add (r p : Nat)
  | alloc (r : Nat)
  | free (r : Nat)
  | use (r : Option Nat)
  | initial (p : Nat)
  | switch (p : Nat) (keep : Bool)
  | trans (F : Option Nat) (p : Nat) (keep : Bool)
  | calc (F : Option Nat) (p : Nat) (fr tr : Option Nat) (keep : Bool)
  | exec (s : Nat)
  | write (v : V)

/-- Where contents of a container are: own memory (allocated already or not), or place
`i` of reservation `r` in the memory allocated by the call at time `t`. -/
inductive Place
  | own (alloced : Bool)
  | res (r t i : Nat)
  deriving DecidableEq

section
variable {V : Type}

abbrev Hist (V : Type) := List (Call V)

/-- Number of reservations created. -/
def made : Hist V → Nat
  | [] => 0
  | .new :: h => made h + 1
  | _ :: h => made h

def Freed : Hist V → Nat → Prop
  | [], _ => False
  | .free r' :: h, r => r' = r ∨ Freed h r
  | _ :: h, r => Freed h r

def InUse (h : Hist V) (r : Nat) : Prop := r < made h ∧ ¬ Freed h r

/-- Partitionings added to a reservation, in order. -/
def adds : Hist V → Nat → List Nat
  | [], _ => []
  | .add r' p :: h, r => if r' = r then adds h r ++ [p] else adds h r
  | _ :: h, r => adds h r

/-- Time of the last allocation for a reservation, and number of partitionings added
until then. -/
def gen : Hist V → Nat → Option (Nat × Nat)
  | [], _ => none
  | .alloc r' :: h, r => if r' = r ∧ adds h r ≠ [] then some (h.length, (adds h r).length) else gen h r
  | _ :: h, r => gen h r

/-- Place for partitioning `p` in a reservation. -/
def covered (h : Hist V) (r p : Nat) : Option Place :=
  match gen h r with
  | none => none
  | some (t, n) => if p ∈ (adds h r).take n then some (.res r t ((adds h r).idxOf p)) else none

/-- Reservation given last. -/
def used : Hist V → Option Nat
  | [] => none
  | .use (some r) :: _ => some r
  | _ :: h => used h

/-- Place for partitioning `p` if switched to now. -/
def placeFor (h : Hist V) (p : Nat) (alloced : Bool) : Place :=
  ((used h).bind fun r => covered h r p).getD (.own alloced)

/-- A prepared sequence: partitionings, and places it was made for (`none`: any). -/
structure Prepared where
  F : Option Nat
  p : Nat
  src : Option Place
  dst : Option Place
  keep : Bool

/-- Sequences, `pr`: the backend prepares sequences. -/
def seqs (pr : Bool) : Hist V → List Prepared
  | [] => []
  | .calc F p fr tr keep :: h =>
    seqs pr h ++ [⟨F, p, if pr then fr.bind fun r => F.bind fun f => covered h r f else none, if pr then tr.bind fun r => covered h r p else none, keep⟩]
  | _ :: h => seqs pr h

/-- Active partitioning and place of contents. -/
def now (pr : Bool) : Hist V → Option (Nat × Place)
  | [] => none
  | .initial p :: h => some (p, placeFor h p false)
  | .switch p _ :: h => some (p, placeFor h p true)
  | .trans _ p _ :: h => some (p, placeFor h p true)
  | .exec s :: h => match (seqs pr h)[s]? with
    | some q => some (q.p, placeFor h q.p true)
    | none => now pr h
  | _ :: h => now pr h

/-- The memory for the allocation of time `t` of a reservation can be used: it is given
up when the reservation is freed, if it was the last allocation. -/
def GenOK (h : Hist V) (r t : Nat) : Prop := ¬ (Freed h r ∧ ∃ n, gen h r = some (t, n))

/-- Contents of the container can be used. -/
def PlaceOK (pr : Bool) (h : Hist V) : Prop := ∀ p r t i, now pr h = some (p, .res r t i) → GenOK h r t

/-- The reservation given last was not freed. -/
def UseOK (h : Hist V) : Prop := ∀ r, used h = some r → InUse h r

/-- Calls which are allowed after `h`. -/
def Allowed (pr : Bool) (h : Hist V) : Call V → Prop
  | .new => True
  | .add r _ => InUse h r
  | .alloc r => InUse h r
  | .free r => InUse h r ∧ (adds h r = [] ∨ ∃ t, gen h r = some (t, (adds h r).length))
  | .use r => ∃ r', r = some r' ∧ InUse h r'
  | .initial _ => now pr h = none ∧ UseOK h
  | .switch _ _ => UseOK h ∧ PlaceOK pr h
  | .trans F _ _ => (now pr h).map (·.1) = F ∧ UseOK h ∧ PlaceOK pr h
  | .calc _ _ fr tr _ => (∀ r, fr = some r → InUse h r) ∧ ∀ r, tr = some r → InUse h r
  | .exec s => ∃ q, (seqs pr h)[s]? = some q ∧ (now pr h).map (·.1) = q.F ∧ UseOK h ∧ PlaceOK pr h ∧
      (∀ x, q.src = some x → (now pr h).map (·.2) = some x) ∧ ∀ x, q.dst = some x → placeFor h q.p true = x
  | .write _ => PlaceOK pr h ∧ ∃ p x, now pr h = some (p, x) ∧ x ≠ .own false

/-- All calls were allowed when done. -/
def Legal (pr : Bool) : Hist V → Prop
  | [] => True
  | c :: h => Legal pr h ∧ Allowed pr h c

/-- Switch in which contents have to be kept: target. -/
def keeps (pr : Bool) (h : Hist V) : Call V → Option Nat
  | .switch p true => some p
  | .trans _ p true => some p
  | .exec s => (seqs pr h)[s]?.bind fun q => if q.keep then some q.p else none
  | _ => none

/-- Contents which the container should have (`none`: not known). -/
def content (pr : Bool) : Hist V → Option V
  | [] => none
  | .write v :: _ => some v
  | .initial _ :: _ => none
  | .switch _ k :: h => if k then content pr h else none
  | .trans _ _ k :: h => if k then content pr h else none
  | .exec s :: h => if (keeps pr h (.exec s)).isSome then content pr h else none
  | _ :: h => content pr h

/-- Contents are never to be kept between different allocations of one reservation. -/
def NoCross (pr : Bool) : Hist V → Prop
  | [] => True
  | c :: h => NoCross pr h ∧ ∀ p, keeps pr h c = some p → ∀ f r t i t' i', now pr h = some (f, .res r t i) → placeFor h p true = .res r t' i' → t = t'

/-- No reservation is allocated twice. -/
def OnceAlloc : Hist V → Prop
  | [] => True
  | .alloc r :: h => OnceAlloc h ∧ gen h r = none
  | _ :: h => OnceAlloc h

end

end Laik.Rl
