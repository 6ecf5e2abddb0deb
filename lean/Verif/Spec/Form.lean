import Verif.Spec.Index
/-!
# Specification vocabulary: shape of a partitioning
-/

namespace Laik

/-- Two ranges have the same borders in all dimensions of the space. -/
def SameBox (d : Dims) (a b : Box) : Prop :=
  ∀ k, k < d.toNat → a.lo.get k = b.lo.get k ∧ a.hi.get k = b.hi.get k

/-- Corresponding ranges of two lists have the same borders. -/
inductive SameBoxes (d : Dims) : List Box → List Box → Prop where
  | nil : SameBoxes d [] []
  | cons {a b : Box} {as bs : List Box} : SameBox d a b → SameBoxes d as bs →
      SameBoxes d (a :: as) (b :: bs)

end Laik
