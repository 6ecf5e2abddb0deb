import Mathlib.Data.List.Perm.Basic
/-!
# Combination of values in any order
-/

namespace Laik.Mp

/-- `v` combines all values of a list, in any order and with any brackets. -/
inductive Comb {α : Type} (red : α → α → α) : List α → α → Prop
  | one (v : α) : Comb red [v] v
  | app {A B L : List α} {a b : α} (ha : Comb red A a) (hb : Comb red B b) (hp : (A ++ B).Perm L) : Comb red L (red a b)

/-- Element `j` of a sequence of elements with `es` bytes. -/
def slice {β : Type} (es : Nat) (vs : List β) (j : Nat) : List β := (vs.drop (j * es)).take es

end Laik.Mp
