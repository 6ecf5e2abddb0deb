/-!
# Specification vocabulary: index points and boxes

Only what is needed to state properties: a point has up to three integer
coordinates, a box is a pair of corner points and denotes the set of points
`p` with `from_k ≤ p_k < to_k` in each of the first `dims` coordinates.
-/

namespace Laik

/-- Number of dimensions of an index space.  `include/laik/space.h` allows
1, 2 or 3 (`Laik_Index` is `int64_t i[3]`); spaces can only be created by
`laik_new_space_1d/2d/3d` (`src/space.c` 349-398). -/
inductive Dims where
  | d1 | d2 | d3
  deriving DecidableEq, Repr

def Dims.toNat : Dims → Nat
  | .d1 => 1 | .d2 => 2 | .d3 => 3

/-- `Laik_Index` (`include/laik/space.h`): three coordinates; those beyond
`dims` are ignored.  `int64_t` is modelled as unbounded `Int`. -/
structure Idx where
  x : Int
  y : Int
  z : Int
  deriving DecidableEq, Repr

/-- Coordinate access `i[k]`. -/
def Idx.get (p : Idx) : Nat → Int
  | 0 => p.x
  | 1 => p.y
  | _ => p.z

/-- The corner points of a `Laik_Range` (`include/laik/space.h`): `from`
inclusive, `to` exclusive. -/
structure Box where
  lo : Idx
  hi : Idx
  deriving DecidableEq, Repr

/-- Set semantics: `p` is an index of box `b` in a `d`-dimensional space. -/
def Mem (d : Dims) (b : Box) (p : Idx) : Prop :=
  ∀ k, k < d.toNat → b.lo.get k ≤ p.get k ∧ p.get k < b.hi.get k

/-- A point of a `d`-dimensional space written canonically (unused
coordinates are 0), for counting. -/
def Canon (d : Dims) (p : Idx) : Prop :=
  ∀ k, d.toNat ≤ k → k < 3 → p.get k = 0

/-- `b` has no index. -/
def IsEmptySet (d : Dims) (b : Box) : Prop := ∀ p, ¬ Mem d b p

/-- Every index of `a` is an index of `b`. -/
def SubsetOf (d : Dims) (a b : Box) : Prop := ∀ p, Mem d a p → Mem d b p

end Laik
