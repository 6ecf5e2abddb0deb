/-!
# Specification for the event loop of the TCP2 backend

What the outside sees of one process: input on descriptors, and which commands are in it.
-/

namespace Laik.Lp

/-- Commands: "quit", "myid k", "register ...", "cutoff ...", and other ones.  For another
command: a number, and the processes the handler sends something to, each with the
descriptor the operating system gives if a connection has to be opened. -/
inductive Cmd
  | quit
  | myid (k : Nat)
  | register
  | cutoff
  | other (m : Nat) (sends : List (Nat × Nat))
  deriving DecidableEq, Repr

/-- What a ready descriptor has: a new connection (with the descriptor given to it), bytes
with complete lines `ls` and after them a line not yet complete (`none`: no bytes), the end
of the input, or a read error. -/
inductive In
  | conn (newfd : Nat)
  | lines (ls : List Cmd) (rest : Option Cmd)
  | eof
  | err
  deriving DecidableEq, Repr

/-- Events of a process: `select` returned with ready descriptors; the program sends to
a process (with descriptor as above); the program enters or leaves the part where
registrations are handled at once, and may have an instance. -/
inductive Ev
  | round (l : List (Nat × In))
  | send (k newfd : Nat)
  | mode (starting inst : Bool)

def upd {A : Type} (f : Nat → A) (i : Nat) (v : A) : Nat → A := fun x => if x = i then v else f x

/-- Commands in the input of ready descriptors, in order, and lines which are not complete
afterwards: a line not complete at the end of the input counts as command. -/
def said (p : Nat → Option Cmd) : List (Nat × In) → List (Nat × Cmd) × (Nat → Option Cmd)
  | [] => ([], p)
  | (i, .lines ls r) :: t => let q := said (upd p i r) t; (ls.map (fun c => (i, c)) ++ q.1, q.2)
  | (i, .eof) :: t => let q := said (upd p i none) t; ((p i).toList.map (fun c => (i, c)) ++ q.1, q.2)
  | (_, .conn _) :: t => said p t
  | (_, .err) :: t => said p t

/-- Commands in the input over a list of events. -/
def saidAll (p : Nat → Option Cmd) : List Ev → List (Nat × Cmd)
  | [] => []
  | .round l :: t => (said p l).1 ++ saidAll (said p l).2 t
  | _ :: t => saidAll p t

/-- Ready descriptors over a list of events, in order. -/
def readyAll : List Ev → List Nat
  | [] => []
  | .round l :: t => l.map Prod.fst ++ readyAll t
  | _ :: t => readyAll t

/-- Input of clients which only use other commands, and "quit" only as a complete line
which is the last thing they send. -/
def calmIn : In → Bool
  | .lines ls r =>
    ls.dropLast.all (fun c => match c with | .other _ _ => true | _ => false) &&
    (match r with
     | none => (match ls.getLast? with | some (.other _ _) => true | some .quit => true | none => true | _ => false)
     | some (.other _ _) => (match ls.getLast? with | some (.other _ _) => true | none => true | _ => false)
     | some _ => false)
  | _ => true

/-- Descriptors the operating system gives. -/
def given : In → List Nat
  | .conn f => [f]
  | .lines ls r => (ls ++ r.toList).flatMap fun c => match c with | .other _ l => l.map Prod.snd | _ => []
  | _ => []

/-- Descriptors given in an event. -/
def givenEv : Ev → List Nat
  | .round l => l.flatMap fun p => given p.2
  | .send _ f => [f]
  | .mode _ _ => []

/-- Events with such input only. -/
def calmEv : Ev → Bool
  | .round l => l.all fun p => calmIn p.2
  | _ => true

end Laik.Lp
