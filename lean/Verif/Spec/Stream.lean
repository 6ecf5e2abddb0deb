import Mathlib.Data.List.Basic
/-!
# Messages on a connection

What a peer sends: text lines and blocks of binary data, and what a receiver
is expected to have done after the first `n` bytes.
-/

namespace Laik.Tcp

abbrev Bytes := List UInt8

/-- A receiver.  `line` handles a text line, with result false if this closed
the connection.  `rem` elements of `esize` bytes are outstanding; `elem`
handles one of them, with result false if it was the last. -/
structure Receiver (σ : Type) where
  line : σ → Bytes → σ × Bool
  rem : σ → Nat
  esize : σ → Nat
  elem : σ → Bytes → σ × Bool

/-- A message: text line without line end, or block of binary data. -/
inductive Msg where
  | line (b : Bytes)
  | block (b : Bytes)

/-- Bytes on the wire. -/
def Msg.bytes : Msg → Bytes
  | .line b => b ++ [10]
  | .block b => 66 :: UInt8.ofNat (b.length % 256) :: UInt8.ofNat (b.length / 256) :: b

/-- Bytes of a sequence of messages. -/
def wire : List Msg → Bytes
  | [] => []
  | m :: ms => m.bytes ++ wire ms

/-- Carriage return counts as blank. -/
def blankCR (c : UInt8) : UInt8 := if c = 13 then 32 else c

variable {σ : Type}

/-- The first `k` pieces of `z` bytes. -/
def pieces (z : Nat) : Nat → Bytes → List Bytes
  | 0, _ => []
  | k + 1, b => b.take z :: pieces z k (b.drop z)

/-- All complete elements of `b` are handled in order; without anything
outstanding, data is ignored. -/
def takeIn (R : Receiver σ) (s : σ) (b : Bytes) : σ :=
  if R.rem s = 0 then s
  else (pieces (R.esize s) (b.length / R.esize s) b).foldl (fun s e => (R.elem s e).1) s

/-- A line is handled; an empty one is ignored. -/
def takeLine (R : Receiver σ) (s : σ) (b : Bytes) : σ :=
  if b = [] then s else (R.line s (b.map blankCR)).1

/-- State after the first `n` bytes of the messages arrived: complete lines
and complete elements are handled, in order. -/
def after (R : Receiver σ) : σ → List Msg → Nat → σ
  | s, [], _ => s
  | s, .line b :: ms, n =>
    if n < b.length + 1 then s else after R (takeLine R s b) ms (n - (b.length + 1))
  | s, .block b :: ms, n =>
    if n < 3 then s
    else if n - 3 < b.length then takeIn R s (b.take (n - 3))
    else after R (takeIn R s b) ms (n - 3 - b.length)

/-- State after all messages. -/
def afterAll (R : Receiver σ) : σ → List Msg → σ
  | s, [] => s
  | s, .line b :: ms => afterAll R (takeLine R s b) ms
  | s, .block b :: ms => afterAll R (takeIn R s b) ms

/-- What is required of a block: elements asked for, at most all of them. -/
def BlockOK (R : Receiver σ) (s : σ) (len : Nat) : Prop :=
  R.rem s = 0 ∨ (0 < R.esize s ∧ R.esize s ∣ len ∧ len ≤ R.rem s * R.esize s)

/-- Messages of a peer which follows the protocol: lines are shorter than the
buffer (`lim`), do not start with `B`, have no control characters with a
meaning, and do not close the connection. -/
def Proper (R : Receiver σ) (lim : Nat) : σ → List Msg → Prop
  | _, [] => True
  | s, .line b :: ms =>
    b.length < lim ∧ b.head? ≠ some 66 ∧ (10 : UInt8) ∉ b ∧ (4 : UInt8) ∉ b ∧
    (b ≠ [] → (R.line s (b.map blankCR)).2 = true) ∧ Proper R lim (takeLine R s b) ms
  | s, .block b :: ms =>
    b.length < 65536 ∧ R.esize s ≤ lim ∧ BlockOK R s b.length ∧ Proper R lim (takeIn R s b) ms

/-- A receiver counts: each element reduces the number of outstanding ones,
and the last is recognised.  `Inv` are the states of interest. -/
structure Counting (R : Receiver σ) (Inv : σ → Prop) : Prop where
  line : ∀ s b, Inv s → Inv (R.line s b).1
  elem : ∀ s e, Inv s → R.rem s ≠ 0 → e.length = R.esize s →
    Inv (R.elem s e).1 ∧ R.rem (R.elem s e).1 + 1 = R.rem s ∧
    R.esize (R.elem s e).1 = R.esize s ∧
    ((R.elem s e).2 = true ↔ R.rem (R.elem s e).1 ≠ 0)

end Laik.Tcp
