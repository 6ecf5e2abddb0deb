import Verif.Spec.Index
/-!
# Specification vocabulary: enumeration of the indexes of a box, memory cells

`boxPts d b` lists the indexes of a box in lexicographic order, dimension 0
running fastest; coordinates beyond the dimensionality are 0.
Memory is addressed in units of elements (one cell = one element of the
container), addresses are integers.
-/

namespace Laik.Lay

/-- `lo, lo+1, …` (`n` numbers). -/
def spanN : Nat → Int → List Int
  | 0, _ => []
  | n + 1, lo => lo :: spanN n (lo + 1)

/-- All integers `lo ≤ i < hi`, ascending. -/
def span (lo hi : Int) : List Int := spanN (hi - lo).toNat lo

/-- Range of coordinate 1: `[0,1)` if the space has only one dimension. -/
def ylo (d : Dims) (b : Box) : Int := if d.toNat > 1 then b.lo.y else 0
def yhi (d : Dims) (b : Box) : Int := if d.toNat > 1 then b.hi.y else 1
/-- Range of coordinate 2: `[0,1)` if the space has less than three dimensions. -/
def zlo (d : Dims) (b : Box) : Int := if d.toNat > 2 then b.lo.z else 0
def zhi (d : Dims) (b : Box) : Int := if d.toNat > 2 then b.hi.z else 1

/-- The indexes of a box in lexicographic order. -/
def boxPts (d : Dims) (b : Box) : List Idx :=
  (span (zlo d b) (zhi d b)).flatMap fun z =>
    (span (ylo d b) (yhi d b)).flatMap fun y =>
      (span b.lo.x b.hi.x).map fun x => ⟨x, y, z⟩

/-- Unused coordinates set to 0. -/
def canon (d : Dims) (p : Idx) : Idx :=
  ⟨p.x, if d.toNat > 1 then p.y else 0, if d.toNat > 2 then p.z else 0⟩

/-- Lexicographic order of the points of a `d`-dimensional space with
dimension 0 fastest. -/
def LexLt (d : Dims) (p q : Idx) : Prop :=
  (d.toNat > 2 ∧ p.z < q.z) ∨
  ((d.toNat > 2 → p.z = q.z) ∧
    ((d.toNat > 1 ∧ p.y < q.y) ∨ ((d.toNat > 1 → p.y = q.y) ∧ p.x < q.x)))

/-- Memory after storing the values `vs` at the addresses `as`, in order. -/
def storeAll {V : Type} (mem : Int → V) : List Int → List V → Int → V
  | a :: as, v :: vs => storeAll (fun c => if c = a then v else mem c) as vs
  | _, _ => mem

/-- `new` arises from `old` by moving, for each index of `b`, the value from
its source cell (content `src`) to its destination cell; no other cell
changes. -/
def Moved {V : Type} (d : Dims) (b : Box) (srcVal : Idx → V) (dst : Idx → Int)
    (old new : Int → V) : Prop :=
  (∀ p, Mem d b p → new (dst p) = srcVal p) ∧
  (∀ a, (∀ p, Mem d b p → dst p ≠ a) → new a = old a)

/-! ### Sanity of the vocabulary -/

theorem mem_spanN (n : Nat) : ∀ (lo i : Int), i ∈ spanN n lo ↔ lo ≤ i ∧ i < lo + n := by
  induction n with
  | zero => intro lo i; simp [spanN]
  | succ n ih => intro lo i; simp [spanN, ih]; omega

theorem mem_span (lo hi i : Int) : i ∈ span lo hi ↔ lo ≤ i ∧ i < hi := by
  unfold span; rw [mem_spanN]; omega

theorem length_spanN (n : Nat) : ∀ lo, (spanN n lo).length = n := by
  induction n with
  | zero => intro lo; rfl
  | succ n ih => intro lo; simp [spanN, ih]

/-- `boxPts` lists exactly the indexes of the box (in canonical form). -/
theorem mem_boxPts (d : Dims) (b : Box) (p : Idx) :
    p ∈ boxPts d b ↔ Mem d b p ∧ canon d p = p := by
  obtain ⟨px, py, pz⟩ := p
  have key : ⟨px, py, pz⟩ ∈ boxPts d b ↔ (b.lo.x ≤ px ∧ px < b.hi.x) ∧
      (ylo d b ≤ py ∧ py < yhi d b) ∧ (zlo d b ≤ pz ∧ pz < zhi d b) := by
    unfold boxPts
    simp only [List.mem_flatMap, List.mem_map, mem_span, Idx.mk.injEq]
    constructor
    · rintro ⟨z, hz, y, hy, x, hx, rfl, rfl, rfl⟩
      exact ⟨hx, hy, hz⟩
    · rintro ⟨hx, hy, hz⟩
      exact ⟨pz, hz, py, hy, px, hx, rfl, rfl, rfl⟩
  rw [key]
  unfold Mem
  constructor
  · intro h
    refine ⟨fun k hk => ?_, ?_⟩
    · cases d <;> simp [Dims.toNat, ylo, yhi, zlo, zhi] at hk h ⊢ <;>
        (match k, hk with
         | 0, _ => simp [Idx.get]; omega
         | 1, _ => simp [Idx.get]; omega
         | 2, _ => simp [Idx.get]; omega)
    · cases d <;> simp [canon, Dims.toNat, ylo, yhi, zlo, zhi] at h ⊢ <;> omega
  · rintro ⟨h, hc⟩
    cases d
    · have h0 := h 0 (by decide)
      simp [canon, Dims.toNat, ylo, yhi, zlo, zhi, Idx.get] at h0 hc ⊢; omega
    · have h0 := h 0 (by decide); have h1 := h 1 (by decide)
      simp [canon, Dims.toNat, ylo, yhi, zlo, zhi, Idx.get] at h0 h1 hc ⊢; omega
    · have h0 := h 0 (by decide); have h1 := h 1 (by decide); have h2 := h 2 (by decide)
      simp [canon, Dims.toNat, ylo, yhi, zlo, zhi, Idx.get] at h0 h1 h2 hc ⊢; omega

theorem mem_canon (d : Dims) (b : Box) (p : Idx) : Mem d b (canon d p) ↔ Mem d b p := by
  unfold Mem
  have e : ∀ k, k < d.toNat → (canon d p).get k = p.get k := by
    intro k hk
    have h3 : d.toNat ≤ 3 := by cases d <;> decide
    match k, hk with
    | 0, _ => rfl
    | 1, hk => simp [canon, Idx.get]; intro h; omega
    | 2, hk => simp [canon, Idx.get]; intro h; omega
    | k + 3, hk => omega
  constructor
  · intro h k hk; rw [← e k hk]; exact h k hk
  · intro h k hk; rw [e k hk]; exact h k hk

theorem canon_canon (d : Dims) (p : Idx) : canon d (canon d p) = canon d p := by
  cases d <;> simp [canon, Dims.toNat]

end Laik.Lay
