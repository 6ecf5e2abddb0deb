import Verif.Spec.Memory
import Verif.Spec.NetExec
/-!
# Execution of programs with non-blocking sends and receives

Small-step semantics of processes with memory of bytes of type `β`.  A request
for a send or receive is posted first, the data is transferred at any time later,
and a process can wait for the end of a request.  The bytes to send are read from
memory only when the data is taken from there, which may be any time between
posting the request and the end of the wait for it.
-/

namespace Laik.NX

variable {β : Type}

/-- Request to send `len` bytes at `ptr` to `peer`, or to receive from it. -/
structure AReq where
  id : Nat
  peer : Nat
  ptr : Nat
  len : Nat
  deriving DecidableEq, Repr

/-- Actions.  `out` gives the contents contributed to a collective, `inn` the
memory after its result is received. -/
inductive AAct (β : Type)
  | loc (f : (Nat → β) → Nat → β)
  | isend (r : AReq)
  | irecv (r : AReq)
  | wait (id : Nat)
  | coll (c : Nat) (out : (Nat → β) → List β) (inn : (Nat → β) → List β → Nat → β)

/-- Store bytes at `d`. -/
def putMem (m : Nat → β) (d : Nat) (vs : List β) : Nat → β :=
  fun x => if d ≤ x then vs.getD (x - d) (m x) else m x

/-- For each process: actions to do, memory, requests for sends of which the data
is still in memory (`sq`), data taken from memory which is not yet delivered
(`chan`, with receiver), requests for receives without data (`rq`). -/
structure AState (β : Type) where
  rem : Nat → List (AAct β)
  mem : Nat → Nat → β
  sq : Nat → List AReq
  chan : Nat → List (Nat × List β)
  rq : Nat → List AReq

/-- Steps of `n` processes without any buffering of messages.  Messages between
two processes match requests in the order of posting.  A wait ends if the
request was completed.  The data of a message must have the size requested.
`cf c w p` is what process `p` gets from collective `c` for contributions `w`. -/
inductive ARStep (n : Nat) (cf : Nat → (Nat → List β) → Nat → List β) : AState β → AState β → Prop
  | loc (st : AState β) (p : Nat) (f) (t) (h : st.rem p = .loc f :: t) :
      ARStep n cf st { st with rem := upP st.rem p t, mem := upP st.mem p (f (st.mem p)) }
  | isend (st : AState β) (p : Nat) (r) (t) (h : st.rem p = .isend r :: t) :
      ARStep n cf st { st with rem := upP st.rem p t, sq := upP st.sq p (st.sq p ++ [r]) }
  | irecv (st : AState β) (p : Nat) (r) (t) (h : st.rem p = .irecv r :: t) :
      ARStep n cf st { st with rem := upP st.rem p t, rq := upP st.rq p (st.rq p ++ [r]) }
  | wait (st : AState β) (p : Nat) (id) (t) (h : st.rem p = .wait id :: t)
      (hs : ∀ r ∈ st.sq p, r.id ≠ id) (hr : ∀ r ∈ st.rq p, r.id ≠ id) :
      ARStep n cf st { st with rem := upP st.rem p t }
  | deliver (st : AState β) (p q : Nat) (c1 c2 vs) (r1 r r2)
      (hc : st.chan p = c1 ++ (q, vs) :: c2) (hc1 : ∀ y ∈ c1, y.1 ≠ q)
      (hr : st.rq q = r1 ++ r :: r2) (hr1 : ∀ y ∈ r1, y.peer ≠ p) (hrp : r.peer = p) (hl : vs.length = r.len) :
      ARStep n cf st { st with chan := upP st.chan p (c1 ++ c2), rq := upP st.rq q (r1 ++ r2), mem := upP st.mem q (putMem (st.mem q) r.ptr vs) }
  | meet (st : AState β) (p q : Nat) (s1 s s2) (r1 r r2)
      (hs : st.sq p = s1 ++ s :: s2) (hs1 : ∀ y ∈ s1, y.peer ≠ q) (hsq : s.peer = q) (hc : ∀ y ∈ st.chan p, y.1 ≠ q)
      (hr : st.rq q = r1 ++ r :: r2) (hr1 : ∀ y ∈ r1, y.peer ≠ p) (hrp : r.peer = p) (hl : s.len = r.len) :
      ARStep n cf st { st with sq := upP st.sq p (s1 ++ s2), rq := upP st.rq q (r1 ++ r2), mem := upP st.mem q (putMem (st.mem q) r.ptr (readMem (st.mem p) s.ptr s.len)) }
  | coll (st : AState β) (c : Nat) (out : Nat → (Nat → β) → List β) (inn : Nat → (Nat → β) → List β → Nat → β) (t : Nat → List (AAct β))
      (hn : 0 < n) (h : ∀ p < n, st.rem p = .coll c (out p) (inn p) :: t p) :
      ARStep n cf st { st with
        rem := fun p => if p < n then t p else st.rem p,
        mem := fun p => if p < n then inn p (st.mem p) (cf c (fun q => out q (st.mem q)) p) else st.mem p }

/-- Steps if messages may also be buffered: the data is taken from memory before
it is delivered. -/
inductive AStep (n : Nat) (cf : Nat → (Nat → List β) → Nat → List β) : AState β → AState β → Prop
  | strict {st st' : AState β} (h : ARStep n cf st st') : AStep n cf st st'
  | take (st : AState β) (p : Nat) (s1 s s2) (hs : st.sq p = s1 ++ s :: s2) (hs1 : ∀ y ∈ s1, y.peer ≠ s.peer) :
      AStep n cf st { st with sq := upP st.sq p (s1 ++ s2), chan := upP st.chan p (st.chan p ++ [(s.peer, readMem (st.mem p) s.ptr s.len)]) }

/-- Executions with their number of steps. -/
inductive ASteps (n : Nat) (cf : Nat → (Nat → List β) → Nat → List β) : Nat → AState β → AState β → Prop
  | refl (st : AState β) : ASteps n cf 0 st st
  | tail {k : Nat} {st st' st'' : AState β} (h : ASteps n cf k st st') (s : AStep n cf st' st'') : ASteps n cf (k + 1) st st''

/-- Nothing left to do, no request or message left over. -/
def ADone (st : AState β) : Prop :=
  ∀ p, st.rem p = [] ∧ st.sq p = [] ∧ st.chan p = [] ∧ st.rq p = []

/-- Start of an execution. -/
def AState.start (prog : Nat → List (AAct β)) (mem : Nat → Nat → β) : AState β := ⟨prog, mem, fun _ => [], fun _ => [], fun _ => []⟩

end Laik.NX
