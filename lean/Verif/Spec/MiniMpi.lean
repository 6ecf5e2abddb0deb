import Mathlib.Logic.Function.Basic
/-!
# Ideal channels between the processes of communicators (specification for C53, C54)

What a program expects of a message passing library: one first-in-first-out
channel for each communicator, pair of ranks, kind of message and tag. Nothing
in here knows about headers, serial numbers, boxes or tasks.
-/

namespace Laik.Mm

abbrev Body := List UInt8

/-- A communicator. `id` identifies it (two communicators created by different
calls have different ids), `tasks` gives the process for each rank; `gen` is
carried along for the model of the code, no meaning here. -/
structure Comm where
  id : Nat
  tasks : List Nat
  gen : Nat
  deriving DecidableEq, Repr

/-- A channel: messages of kind `ty` with tag `tag` from rank `s` to rank `r`. -/
structure Chan where
  c : Comm
  ty : Nat
  s : Nat
  r : Nat
  tag : Nat
  deriving DecidableEq, Repr

/-- Arguments of a send operation; `rank` is the own rank. -/
structure Snd where
  c : Comm
  rank : Nat
  ty : Nat
  dst : Nat
  tag : Nat
  body : Body
  deriving DecidableEq, Repr

def Snd.chan (m : Snd) : Chan := ⟨m.c, m.ty, m.rank, m.dst, m.tag⟩

/-- Arguments of a receive operation; `rank` is the own rank. -/
structure Rcv where
  c : Comm
  rank : Nat
  ty : Nat
  src : Nat
  tag : Nat
  deriving DecidableEq, Repr

def Rcv.chan (m : Rcv) : Chan := ⟨m.c, m.ty, m.src, m.rank, m.tag⟩

/-- Program of a process. `fork` starts sending a list of messages in the
background, `join` waits until they are sent. -/
inductive Prog (β : Type)
  | ret (x : β)
  | err
  | send (m : Snd) (k : Prog β)
  | ssend (m : Snd) (k : Prog β)
  | recv (m : Rcv) (k : Body → Prog β)
  | fork (ms : List Snd) (k : Prog β)
  | join (k : Prog β)

/-- State of ideal channels: programs still to be done, messages still to be sent
in the background, all messages ever sent on each channel, and how many of them
were received. -/
structure Ideal (β : Type) where
  prog : Nat → Prog β
  bg : Nat → List Snd
  sent : Chan → List Body
  rd : Chan → Nat

variable {β : Type}

open Function

/-- A step with ideal channels. -/
inductive IStep : Ideal β → Ideal β → Prop
  | send (t : Ideal β) (p : Nat) (m : Snd) (k : Prog β) (h : t.prog p = .send m k) :
      IStep t { t with prog := update t.prog p k
                       sent := update t.sent m.chan (t.sent m.chan ++ [m.body]) }
  | ssend (t : Ideal β) (p : Nat) (m : Snd) (k : Prog β) (h : t.prog p = .ssend m k) :
      IStep t { t with prog := update t.prog p k
                       sent := update t.sent m.chan (t.sent m.chan ++ [m.body]) }
  | recv (t : Ideal β) (p : Nat) (m : Rcv) (k : Body → Prog β) (b : Body)
      (h : t.prog p = .recv m k) (hb : (t.sent m.chan)[t.rd m.chan]? = some b) :
      IStep t { t with prog := update t.prog p (k b)
                       rd := update t.rd m.chan (t.rd m.chan + 1) }
  | fork (t : Ideal β) (p : Nat) (ms : List Snd) (k : Prog β) (h : t.prog p = .fork ms k)
      (hb : t.bg p = []) :
      IStep t { t with prog := update t.prog p k, bg := update t.bg p ms }
  | bg (t : Ideal β) (p : Nat) (m : Snd) (ms : List Snd) (h : t.bg p = m :: ms) :
      IStep t { t with bg := update t.bg p ms
                       sent := update t.sent m.chan (t.sent m.chan ++ [m.body]) }
  | join (t : Ideal β) (p : Nat) (k : Prog β) (h : t.prog p = .join k) (hb : t.bg p = []) :
      IStep t { t with prog := update t.prog p k }

/-- Executions. -/
inductive ISteps (t : Ideal β) : Ideal β → Prop
  | refl : ISteps t t
  | tail {u v : Ideal β} (h : ISteps t u) (hs : IStep u v) : ISteps t v

/-- Start: nothing sent, nothing received. -/
def Ideal.start (prog : Nat → Prog β) : Ideal β := ⟨prog, fun _ => [], fun _ => [], fun _ => 0⟩

/-- Process `p` sends `m` as rank `m.rank` of a communicator of `S`, to another rank. -/
def Snd.OK (S : Comm → Prop) (p : Nat) (m : Snd) : Prop :=
  S m.c ∧ m.c.tasks[m.rank]? = some p ∧ m.dst < m.c.tasks.length ∧ m.dst ≠ m.rank

/-- Process `p` receives as rank `m.rank` of a communicator of `S`, from another rank. -/
def Rcv.OK (S : Comm → Prop) (p : Nat) (m : Rcv) : Prop :=
  S m.c ∧ m.c.tasks[m.rank]? = some p ∧ m.src < m.c.tasks.length ∧ m.src ≠ m.rank

/-- A program of process `p` using only communicators of `S`, correctly. -/
inductive Uses (S : Comm → Prop) (p : Nat) : Prog β → Prop
  | ret (x : β) : Uses S p (.ret x)
  | err : Uses S p .err
  | send {m : Snd} {k : Prog β} (h : m.OK S p) (hk : Uses S p k) : Uses S p (.send m k)
  | ssend {m : Snd} {k : Prog β} (h : m.OK S p) (hk : Uses S p k) : Uses S p (.ssend m k)
  | recv {m : Rcv} {k : Body → Prog β} (h : m.OK S p) (hk : ∀ b, Uses S p (k b)) :
      Uses S p (.recv m k)
  | fork {ms : List Snd} {k : Prog β} (h : ∀ m ∈ ms, m.OK S p) (hk : Uses S p k) :
      Uses S p (.fork ms k)
  | join {k : Prog β} (hk : Uses S p k) : Uses S p (.join k)

end Laik.Mm
