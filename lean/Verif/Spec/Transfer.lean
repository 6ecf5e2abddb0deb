import Verif.Spec.Points
/-!
# Values arriving at a destination

Vocabulary for C39: each cell of a destination is combined with the value
from the source for the same index.
-/

namespace Laik.Lay

/-- `new` arises from `old` by combining, for each index of `b`, the content
of its destination cell with the source value; no other cell changes. -/
def Combined {V : Type} (d : Dims) (b : Box) (f : V → V → V) (srcVal : Idx → V) (dst : Idx → Int)
    (old new : Int → V) : Prop :=
  (∀ p, Mem d b p → new (dst p) = f (old (dst p)) (srcVal p)) ∧
  (∀ a, (∀ p, Mem d b p → dst p ≠ a) → new a = old a)

/-- Value after receiving `e`: `e` itself without reduction, otherwise the
reduction of the old value and `e`. -/
def Received {V : Type} (op : Option (V → V → V)) (old e : V) : V := (op.map (fun f => f old e)).getD e

end Laik.Lay
