/-!
# Execution of programs with messages and collectives on any kind of memory

Small-step semantics of processes which have memory of type `M` and exchange
messages that are lists of `V` (e.g. bytes).
-/

namespace Laik.NX

/-- Actions.  `out` gives the contents sent or contributed, `inn` the memory after
contents are received.  A receive takes only messages of length `n`. -/
inductive XAct (M V : Type)
  | loc (f : M → M)
  | send (q : Nat) (out : M → List V)
  | recv (q n : Nat) (inn : M → List V → M)
  | coll (c : Nat) (out : M → List V) (inn : M → List V → M)

variable {M V : Type}

/-- Actions to do and memory of each process, messages on the way. -/
structure XState (M V : Type) where
  rem : Nat → List (XAct M V)
  chan : Nat → Nat → List (List V)
  mem : Nat → M

/-- Replace the entry of process `p`. -/
def upP {β : Type} (f : Nat → β) (p : Nat) (v : β) : Nat → β := fun q => if q = p then v else f q

/-- Replace the messages on the way from `p` to `q`. -/
def upC (f : Nat → Nat → List (List V)) (p q : Nat) (v : List (List V)) : Nat → Nat → List (List V) :=
  fun a b => if a = p ∧ b = q then v else f a b

/-- Steps of `N` processes needing no buffer space.  A message of unexpected
length allows no step, the same holds for a collective not called by all.
`cf c w p` is what process `p` gets from collective `c` for contributions `w`. -/
inductive XRStep (N : Nat) (cf : Nat → (Nat → List V) → Nat → List V) : XState M V → XState M V → Prop
  | loc (st : XState M V) (p : Nat) (f : M → M) (t : List (XAct M V)) (h : st.rem p = .loc f :: t) :
      XRStep N cf st { st with rem := upP st.rem p t, mem := upP st.mem p (f (st.mem p)) }
  | recv (st : XState M V) (p q n : Nat) (inn : M → List V → M) (t : List (XAct M V)) (vs : List V) (c : List (List V))
      (h : st.rem q = .recv p n inn :: t) (hc : st.chan p q = vs :: c) (hl : vs.length = n) :
      XRStep N cf st { rem := upP st.rem q t
                       chan := upC st.chan p q c
                       mem := upP st.mem q (inn (st.mem q) vs) }
  | meet (st : XState M V) (p q n : Nat) (out : M → List V) (inn : M → List V → M) (t t' : List (XAct M V)) (hne : p ≠ q)
      (hp : st.rem p = .send q out :: t) (hq : st.rem q = .recv p n inn :: t') (hc : st.chan p q = [])
      (hl : (out (st.mem p)).length = n) :
      XRStep N cf st { st with
        rem := upP (upP st.rem p t) q t'
        mem := upP st.mem q (inn (st.mem q) (out (st.mem p))) }
  | coll (st : XState M V) (c : Nat) (out : Nat → M → List V) (inn : Nat → M → List V → M) (t : Nat → List (XAct M V))
      (hN : 0 < N) (h : ∀ p < N, st.rem p = .coll c (out p) (inn p) :: t p) :
      XRStep N cf st { st with
        rem := fun p => if p < N then t p else st.rem p
        mem := fun p => if p < N then inn p (st.mem p) (cf c (fun q => out q (st.mem q)) p) else st.mem p }

/-- All steps: a send may complete before the receiver is ready. -/
inductive XStep (N : Nat) (cf : Nat → (Nat → List V) → Nat → List V) : XState M V → XState M V → Prop
  | sync (st st' : XState M V) (h : XRStep N cf st st') : XStep N cf st st'
  | buf (st : XState M V) (p q : Nat) (out : M → List V) (t : List (XAct M V)) (h : st.rem p = .send q out :: t) :
      XStep N cf st { st with
        rem := upP st.rem p t
        chan := upC st.chan p q (st.chan p q ++ [out (st.mem p)]) }

/-- Executions with their number of steps. -/
inductive XSteps (N : Nat) (cf : Nat → (Nat → List V) → Nat → List V) : Nat → XState M V → XState M V → Prop
  | nil (st : XState M V) : XSteps N cf 0 st st
  | snoc {k : Nat} {a b c : XState M V} (h : XSteps N cf k a b) (hs : XStep N cf b c) : XSteps N cf (k + 1) a c

/-- Nothing left to do and no message left over. -/
def XDone (st : XState M V) : Prop := (∀ p, st.rem p = []) ∧ ∀ p q, st.chan p q = []

/-- Start of an execution. -/
def XState.start (prog : Nat → List (XAct M V)) (mem : Nat → M) : XState M V :=
  { rem := prog, chan := fun _ _ => [], mem := mem }

end Laik.NX
