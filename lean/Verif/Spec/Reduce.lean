/-!
# Specification vocabulary: reductions of many inputs

A reduction combines inputs in some order and grouping, i.e. along a binary
tree with the inputs as leaves.
-/

namespace Laik.Ty

/-- Order and grouping of inputs. -/
inductive RTree (V : Type) where
  | leaf (v : V)
  | node (l r : RTree V)

/-- The inputs, in order. -/
def RTree.leaves {V : Type} : RTree V → List V
  | .leaf v => [v]
  | .node l r => l.leaves ++ r.leaves

/-- Result of combining along the tree with a partial operation. -/
def RTree.eval {V : Type} (f : V → V → Option V) : RTree V → Option V
  | .leaf v => some v
  | .node l r =>
    match l.eval f, r.eval f with
    | some x, some y => f x y
    | _, _ => none

end Laik.Ty
