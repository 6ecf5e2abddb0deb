/-!
# Specification of log output: messages shown in lines

Characters are numbers. Written from the comments in `src/logging.c` 153-172 (a prefix is
added to each line, long lines are wrapped, sorting gives stable output), without using the model.
-/

namespace Laik.LogSpec

/-- A printed line without its prefix: a new line of the message, or the continuation
of a line which was too long. -/
structure Line where
  cont : Bool
  indent : Nat
  text : List Nat
  deriving DecidableEq, Repr

/-- Part of the message shown by a line. -/
def Line.piece (l : Line) : List Nat := (if l.cont then [] else List.replicate l.indent 32) ++ l.text

/-- Message shown by lines: a blank between a line and its continuation, a line feed otherwise. -/
def shown : List Line → List Nat
  | [] => []
  | [l] => l.piece
  | l :: l' :: ls => l.piece ++ (if l'.cont then 32 else 10) :: shown (l' :: ls)

/-- The lines show the message: nothing is lost but one blank or line feed at the end. -/
def Shows (ls : List Line) (msg : List Nat) : Prop :=
  msg = shown ls ∨ msg = shown ls ++ [10] ∨ msg = shown ls ++ [32]

/-- Lines are broken as soon as possible: up to the last blank within a line, it has no more than 100 characters. -/
def Wrapped (l : Line) : Prop := ∀ a w, l.text = a ++ 32 :: w → 32 ∉ w → l.piece.length - (w.length + 1) ≤ 100

/-- Lines are not broken without need: with the first word of its continuation, a line would have more than
100 characters (4 blanks of the indentation of continuations are not counted). -/
def Greedy : List Line → Prop
  | [] => True
  | [_] => True
  | l :: l' :: ls =>
    (l'.cont = true → ∀ w r, l'.text = w ++ r → 32 ∉ w → (r = [] ∨ r.head? = some 32) →
      100 < (if l.cont then l.indent - 4 else l.indent) + l.text.length + 1 + w.length) ∧ Greedy (l' :: ls)

/-- Continuations are indented by 4 blanks more than the line continued. -/
def Indented : List Line → Prop
  | [] => True
  | [_] => True
  | l :: l' :: ls =>
    (l'.cont = true → l'.indent = if l.cont then l.indent else l.indent + 4) ∧ Indented (l' :: ls)

/-- Words are not longer than `n`. -/
def WordsLe (n : Nat) (msg : List Nat) : Prop :=
  ∀ a w b, msg = a ++ (w ++ b) → 32 ∉ w → 10 ∉ w → w.length ≤ n

/-- Lines start with no more than `n` blanks. -/
def IndentLe (n : Nat) (msg : List Nat) : Prop :=
  ∀ a k b, msg = a ++ (List.replicate k 32 ++ b) → (a = [] ∨ a.getLast? = some 10) → k ≤ n

end Laik.LogSpec
