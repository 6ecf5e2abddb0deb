/-!
# Execution of blocking communication with data

Small-step semantics of processes which have memory, and run lists of copies,
sends and receives of index ranges.  Used to state what a switch between
partitionings does to the data of all processes.
-/

namespace Laik.DE

/-- Indices of the 1d range `[x;y[`, ascending. -/
def idxs (x y : Int) : List Int := (List.range (y - x).toNat).map (fun k : Nat => x + (k : Int))

/-- An action on the range `[x;y[`; `src` and `dst` give the memory cell of an
index.  A receive with `red` combines received with existing values. -/
inductive DAct (A : Type)
  | copy (x y : Int) (src dst : Int → A)
  | send (q : Nat) (x y : Int) (src : Int → A)
  | recv (q : Nat) (x y : Int) (dst : Int → A) (red : Bool)

variable {A V : Type} [DecidableEq A]

/-- Write a memory cell. -/
def put (m : A → V) (a : A) (v : V) : A → V := fun b => if b = a then v else m b

/-- Copy element by element. -/
def doCopy (m : A → V) (x y : Int) (src dst : Int → A) : A → V :=
  (idxs x y).foldl (fun m i => put m (dst i) (m (src i))) m

omit [DecidableEq A] in
/-- Values of a range, in order of indices. -/
def packed (m : A → V) (x y : Int) (src : Int → A) : List V := (idxs x y).map (fun i => m (src i))

/-- Store received values, or combine them with existing ones. -/
def stored (op : V → V → V) (red : Bool) (dst : Int → A) (m : A → V) (x y : Int) (vs : List V) : A → V :=
  ((idxs x y).zip vs).foldl (fun m iv => put m (dst iv.1) (if red then op (m (dst iv.1)) iv.2 else iv.2)) m

/-- Actions to do and memory of each process, messages on the way. -/
structure DState (A V : Type) where
  rem : Nat → List (DAct A)
  chan : Nat → Nat → List (List V)
  mem : Nat → A → V

/-- Replace the entry of process `p`. -/
def setP {β : Type} (f : Nat → β) (p : Nat) (v : β) : Nat → β := fun q => if q = p then v else f q

/-- Replace the messages on the way from `p` to `q`. -/
def setC (f : Nat → Nat → List (List V)) (p q : Nat) (v : List (List V)) : Nat → Nat → List (List V) :=
  fun a b => if a = p ∧ b = q then v else f a b

/-- Steps needing no buffer space.  A received message must have the expected
number of elements, otherwise there is no step. -/
inductive DRStep (op : V → V → V) : DState A V → DState A V → Prop
  | copy (st : DState A V) (p : Nat) (x y : Int) (s d : Int → A) (t : List (DAct A))
      (h : st.rem p = .copy x y s d :: t) :
      DRStep op st { st with rem := setP st.rem p t, mem := setP st.mem p (doCopy (st.mem p) x y s d) }
  | recv (st : DState A V) (p q : Nat) (x y : Int) (d : Int → A) (red : Bool) (t : List (DAct A)) (vs : List V)
      (c : List (List V)) (h : st.rem q = .recv p x y d red :: t) (hc : st.chan p q = vs :: c)
      (hl : vs.length = (y - x).toNat) :
      DRStep op st { rem := setP st.rem q t
                     chan := setC st.chan p q c
                     mem := setP st.mem q (stored op red d (st.mem q) x y vs) }
  | meet (st : DState A V) (p q : Nat) (x y x' y' : Int) (s d : Int → A) (red : Bool) (t t' : List (DAct A))
      (hne : p ≠ q) (hp : st.rem p = .send q x' y' s :: t) (hq : st.rem q = .recv p x y d red :: t')
      (hc : st.chan p q = []) (hl : (packed (st.mem p) x' y' s).length = (y - x).toNat) :
      DRStep op st { st with
        rem := setP (setP st.rem p t) q t'
        mem := setP st.mem q (stored op red d (st.mem q) x y (packed (st.mem p) x' y' s)) }

/-- All steps: a send may complete before the receiver is ready. -/
inductive DStep (op : V → V → V) : DState A V → DState A V → Prop
  | sync (st st' : DState A V) (h : DRStep op st st') : DStep op st st'
  | buf (st : DState A V) (p q : Nat) (x y : Int) (s : Int → A) (t : List (DAct A))
      (h : st.rem p = .send q x y s :: t) :
      DStep op st { st with
        rem := setP st.rem p t
        chan := setC st.chan p q (st.chan p q ++ [packed (st.mem p) x y s]) }

/-- Executions with their number of steps. -/
inductive DSteps (op : V → V → V) : Nat → DState A V → DState A V → Prop
  | nil (st : DState A V) : DSteps op 0 st st
  | snoc {k : Nat} {a b c : DState A V} (h : DSteps op k a b) (hs : DStep op b c) : DSteps op (k + 1) a c

/-- Nothing left to do and no message left over. -/
def DDone (st : DState A V) : Prop := (∀ p, st.rem p = []) ∧ ∀ p q, st.chan p q = []

/-- Start of an execution. -/
def DState.start (prog : Nat → List (DAct A)) (mem : Nat → A → V) : DState A V :=
  { rem := prog, chan := fun _ _ => [], mem := mem }

/-- Result of a reduction at an index: `val t` is the value of process `t`, `ins`
are the processes with input, `r` is the process doing the reduction; its own
value comes first.  Without any input it is the value `r` had before. -/
def combined (op : V → V → V) (val : Nat → V) (before : V) (ins : List Nat) (r : Nat) : V :=
  if r ∈ ins then (ins.filter (fun t => t ≠ r)).foldl (fun v t => op v (val t)) (val r)
  else match ins with
    | [] => before
    | t :: ts => ts.foldl (fun v t => op v (val t)) (val t)

end Laik.DE
