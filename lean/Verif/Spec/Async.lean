import Verif.Spec.Memory
/-!
# Blocking and non-blocking communication of one process

A process sends messages to and receives messages from peers.  Messages between
two processes are matched in the order the operations are started (MPI standard,
"non-overtaking"), so the `i`-th receive started for peer `p` gets message
`inp p i`.  A started non-blocking operation accesses its buffer at some time
between its start and the completion of the wait for it: here this is a
separate step which can happen at any time in between.
-/

namespace Laik

variable {K β : Type} [DecidableEq K]

/-- Action of a process using blocking communication; buffers are given by
address and size. `other` is any local operation (or collective operation using
separate channels). -/
inductive NbAct (K β : Type)
  | send (dst addr n : Nat)
  | recv (src addr n : Nat)
  | other (o : MOp K β)

/-- Cells read by an action. -/
def NbAct.reads : NbAct K β → Nat → Prop
  | .send _ a n, x => a ≤ x ∧ x < a + n
  | .recv _ _ _, _ => False
  | .other o, x => o.R x

/-- Cells written by an action. -/
def NbAct.writes : NbAct K β → Nat → Prop
  | .send _ _ _, _ => False
  | .recv _ a n, x => a ≤ x ∧ x < a + n
  | .other o, x => o.W x = true

/-- Store a message into a buffer. -/
def storeMem (m : Nat → β) (a n : Nat) (v : Nat → β) : Nat → β :=
  fun x => if a ≤ x ∧ x < a + n then v (x - a) else m x

/-- State of a process: memory and channels of `other` operations; number of
messages received and messages sent for each peer. -/
structure BSt (K β : Type) where
  s : MSt K β
  nrecv : Nat → Nat
  sent : Nat → List (List β)

def incAt (f : Nat → Nat) (p : Nat) : Nat → Nat := fun q => if q = p then f q + 1 else f q

def appAt (f : Nat → List (List β)) (p : Nat) (v : List β) : Nat → List (List β) :=
  fun q => if q = p then f q ++ [v] else f q

/-- Execution of one blocking action. -/
def NbAct.run (inp : Nat → Nat → Nat → β) (b : BSt K β) : NbAct K β → BSt K β
  | .send p a n => { b with sent := appAt b.sent p (readMem b.s.mem a n) }
  | .recv p a n =>
    { b with s := { b.s with mem := storeMem b.s.mem a n (inp p (b.nrecv p)) }, nrecv := incAt b.nrecv p }
  | .other o => { b with s := o.run b.s }

def runB (inp : Nat → Nat → Nat → β) (l : List (NbAct K β)) (b : BSt K β) : BSt K β :=
  l.foldl (fun b a => a.run inp b) b

/-- Action of a process using non-blocking communication; `req` only announces
the number of requests. -/
inductive NItem (K β : Type)
  | req (count : Nat)
  | isend (id dst addr n : Nat)
  | irecv (id src addr n : Nat)
  | wait (id : Nat)
  | other (o : MOp K β)

/-- A started operation which did not complete yet: the operation is for the
`idx`-th message from/to the peer. -/
inductive Pend
  | rcv (id src addr n idx : Nat)
  | snd (id dst addr n idx : Nat)
  deriving DecidableEq

def Pend.id : Pend → Nat
  | .rcv i _ _ _ _ => i
  | .snd i _ _ _ _ => i

/-- State when using non-blocking communication: number of receives and sends
started for each peer, content of completed sends, pending operations. -/
structure NSta (K β : Type) where
  s : MSt K β
  npost : Nat → Nat
  nsend : Nat → Nat
  sent : Nat → Nat → Option (List β)
  pend : List Pend

def setSent (f : Nat → Nat → Option (List β)) (p i : Nat) (v : List β) : Nat → Nat → Option (List β) :=
  fun q j => if q = p ∧ j = i then some v else f q j

/-- Effect of the completion of an operation. -/
def Pend.eff (inp : Nat → Nat → Nat → β) (st : NSta K β) : Pend → NSta K β
  | .rcv i p a n k =>
    { st with s := { st.s with mem := storeMem st.s.mem a n (inp p k) }, pend := st.pend.erase (.rcv i p a n k) }
  | .snd i p a n k =>
    { st with sent := setSent st.sent p k (readMem st.s.mem a n), pend := st.pend.erase (.snd i p a n k) }

/-- Steps: execute the next action, or complete a pending operation. -/
inductive AsStep (inp : Nat → Nat → Nat → β) : List (NItem K β) × NSta K β → List (NItem K β) × NSta K β → Prop
  | req (c P st) : AsStep inp (.req c :: P, st) (P, st)
  | isend (i p a n P st) : AsStep inp (.isend i p a n :: P, st)
      (P, { st with nsend := incAt st.nsend p, pend := .snd i p a n (st.nsend p) :: st.pend })
  | irecv (i p a n P st) : AsStep inp (.irecv i p a n :: P, st)
      (P, { st with npost := incAt st.npost p, pend := .rcv i p a n (st.npost p) :: st.pend })
  | wait (i P st) (h : ∀ r ∈ st.pend, r.id ≠ i) : AsStep inp (.wait i :: P, st) (P, st)
  | other (o P st) : AsStep inp (.other o :: P, st) (P, { st with s := o.run st.s })
  | compl (r P st) (h : r ∈ st.pend) : AsStep inp (P, st) (P, r.eff inp st)

/-- Executions. -/
inductive AsSteps (inp : Nat → Nat → Nat → β) : List (NItem K β) × NSta K β → List (NItem K β) × NSta K β → Prop
  | refl (c) : AsSteps inp c c
  | tail (a b c) (h : AsSteps inp a b) (h' : AsStep inp b c) : AsSteps inp a c

/-- State with nothing communicated. -/
def NSta.start (s : MSt K β) : NSta K β := ⟨s, fun _ => 0, fun _ => 0, fun _ _ => none, []⟩

def BSt.start (s : MSt K β) : BSt K β := ⟨s, fun _ => 0, fun _ => []⟩

/-- Conditions under which non-blocking communication does not matter: the
buffer of a receive is not used by earlier actions, and the buffer of a send is
not changed by later actions. -/
def AsyncIndep (l : List (NbAct K β)) : Prop :=
  l.Pairwise (fun a b =>
    (∀ p c n, b = .recv p c n → ∀ x, c ≤ x → x < c + n → ¬ a.reads x ∧ ¬ a.writes x) ∧
    (∀ p c n, a = .send p c n → ∀ x, c ≤ x → x < c + n → ¬ b.writes x))

end Laik
