import Mathlib.Data.List.Perm.Basic
import Mathlib.Tactic.ByContra
/-!
# Operations on memory and communication streams of one process

Used to state that two sequences of operations have the same effect.  A process
sees a memory (address to byte) and for each communication channel `k` a stream
of bytes `inp k` it gets from outside, of which `pos k` are consumed, and the
bytes `out k` it gave to the outside.
-/

namespace Laik

structure MSt (K β : Type) where
  mem : Nat → β
  pos : K → Nat
  out : K → List β

/-- An operation which reads only cells in `R`, writes all cells in `W`, and
communicates only via channel `key` (if any). -/
structure MOp (K β : Type) where
  R : Nat → Prop
  W : Nat → Bool
  val : (Nat → β) → Nat → Nat → β
  key : Option K
  outB : (Nat → β) → List β
  adv : Nat
  val_local : ∀ m m' p x, (∀ y, R y → m y = m' y) → W x = true → val m p x = val m' p x
  out_local : ∀ m m', (∀ y, R y → m y = m' y) → outB m = outB m'

variable {K β : Type} [DecidableEq K]

/-- Position in the stream the operation uses. -/
def MOp.posOf (o : MOp K β) (s : MSt K β) : Nat := (o.key.map s.pos).getD 0

def MOp.run (o : MOp K β) (s : MSt K β) : MSt K β where
  mem x := if o.W x then o.val s.mem (o.posOf s) x else s.mem x
  pos k := if o.key = some k then s.pos k + o.adv else s.pos k
  out k := if o.key = some k then s.out k ++ o.outB s.mem else s.out k

/-- Sequential execution. -/
def runOps (l : List (MOp K β)) (s : MSt K β) : MSt K β := l.foldl (fun s o => o.run s) s

/-- Bytes at `a … a+n`. -/
def readMem (m : Nat → β) (a n : Nat) : List β := (List.range n).map (fun i => m (a + i))

/-- `memcpy` of `n` bytes. -/
def copyOp (src dst n : Nat) : MOp K β where
  R y := src ≤ y ∧ y < src + n
  W x := decide (dst ≤ x ∧ x < dst + n)
  val m _ x := m (src + (x - dst))
  key := none
  outB _ := []
  adv := 0
  val_local m m' p x h hx := by
    simp only [decide_eq_true_eq] at hx
    exact h _ (by omega)
  out_local _ _ _ := rfl

/-- Communication on channel `k`: give the bytes at `src` to the outside if
`isIn`, then store `n` bytes from outside at `dst` if `isOut`. -/
def commOp (inp : K → Nat → β) (k : K) (isIn isOut : Bool) (src dst n : Nat) : MOp K β where
  R y := isIn = true ∧ src ≤ y ∧ y < src + n
  W x := isOut && decide (dst ≤ x ∧ x < dst + n)
  val _ p x := inp k (p + (x - dst))
  key := some k
  outB m := if isIn then readMem m src n else []
  adv := if isOut then n else 0
  val_local _ _ _ _ _ _ := rfl
  out_local m m' h := by
    by_cases c : isIn = true
    · rw [if_pos c, if_pos c]
      unfold readMem
      apply List.map_congr_left
      intro i hi
      rw [List.mem_range] at hi
      exact h _ ⟨c, by omega, by omega⟩
    · rw [if_neg c, if_neg c]

/-- Writes of one operation do not touch cells of the other. -/
def MemIndep (a b : MOp K β) : Prop :=
  (∀ x, a.W x = true → ¬ b.R x ∧ b.W x = false) ∧ (∀ x, b.W x = true → ¬ a.R x)

/-- The operations use different channels. -/
def KeyIndep (a b : MOp K β) : Prop := ∀ k, a.key = some k → b.key ≠ some k

/-- Same communication, and same memory except for the cells in `T`. -/
def SameOutside (T : Nat → Prop) (s s' : MSt K β) : Prop :=
  s.out = s'.out ∧ s.pos = s'.pos ∧ ∀ x, ¬ T x → s.mem x = s'.mem x

end Laik
