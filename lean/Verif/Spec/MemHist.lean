import Mathlib.Data.List.Basic
/-!
# Specification: histories of allocations
-/

namespace Laik.Mem

/-- An allocation or a deallocation of so many bytes. -/
inductive MemEv where
  | malloc (bytes : Nat)
  | free (bytes : Nat)
  deriving DecidableEq, Repr

/-- Bytes allocated in a history. -/
def allocd : List MemEv → Nat
  | [] => 0
  | .malloc b :: h => b + allocd h
  | .free _ :: h => allocd h

/-- Bytes freed in a history. -/
def released : List MemEv → Nat
  | [] => 0
  | .malloc _ :: h => released h
  | .free b :: h => b + released h

/-- Never more freed than allocated, and never 2^64 bytes in use. -/
def Sane (h : List MemEv) : Prop :=
  ∀ p, p <+: h → released p ≤ allocd p ∧ allocd p - released p < 2 ^ 64

/-- `m` is the largest number of bytes in use at any time of the history. -/
def IsPeak (h : List MemEv) (m : Nat) : Prop :=
  (∃ p, p <+: h ∧ m = allocd p - released p) ∧
    ∀ p, p <+: h → allocd p - released p ≤ m

end Laik.Mem
