import Verif.Spec.Index
/-!
# Model of range operations (`src/space.c` 61-297)
-/

namespace Laik

/-- A space as far as range operations see it: an identity (the C code
compares pointers), its dimensionality and bounds.
`struct _Laik_Space` in `include/laik/space-internal.h`. -/
structure Space where
  id : Nat
  dims : Dims
  box : Box
  deriving DecidableEq, Repr

/-- `Laik_Range`: pointer to the space (`none` = NULL = invalid range) and
bounds. -/
structure Rng where
  space : Option Space
  box : Box
  deriving DecidableEq, Repr

/-- `laik_add_index`, src/space.c 61-66. -/
def addIndex (a b : Idx) : Idx := ⟨a.x + b.x, a.y + b.y, a.z + b.z⟩

/-- `laik_sub_index`, src/space.c 68-73. -/
def subIndex (a b : Idx) : Idx := ⟨a.x - b.x, a.y - b.y, a.z - b.z⟩

/-- `laik_index_isEqual`, src/space.c 76-86. -/
def indexIsEqual (d : Dims) (a b : Idx) : Bool :=
  if a.x ≠ b.x then false
  else if d.toNat = 1 then true
  else if a.y ≠ b.y then false
  else if d.toNat = 2 then true
  else if a.z ≠ b.z then false
  else true

/-- `laik_range_isEmpty` on a valid range, src/space.c 146-160. -/
def Box.isEmpty (d : Dims) (b : Box) : Bool :=
  if b.lo.x ≥ b.hi.x then true
  else if d.toNat > 1 then
    if b.lo.y ≥ b.hi.y then true
    else if d.toNat > 2 then
      if b.lo.z ≥ b.hi.z then true else false
    else false
  else false

/-- `laik_range_isEmpty`, src/space.c 141-161. -/
def Rng.isEmpty (r : Rng) : Bool :=
  match r.space with
  | none => true
  | some s => r.box.isEmpty s.dims

/-- `intersectRange`, src/space.c 164-174; `none` is `return false`. -/
def intersect1 (from1 to1 from2 to2 : Int) : Option (Int × Int) :=
  if from1 ≥ to2 then none
  else if from2 ≥ to1 then none
  else some (if from1 > from2 then from1 else from2,
             if to1 > to2 then to2 else to1)

/-- `laik_range_intersect` on two valid ranges of one space,
src/space.c 188-204; `none` is `return 0`.  The static result buffer is
returned by value; coordinates beyond `dims`, which the C code leaves as they
were in the buffer, are 0 here. -/
def Box.intersect (d : Dims) (a b : Box) : Option Box :=
  match intersect1 a.lo.x a.hi.x b.lo.x b.hi.x with
  | none => none
  | some (fx, tx) =>
    if d.toNat > 1 then
      match intersect1 a.lo.y a.hi.y b.lo.y b.hi.y with
      | none => none
      | some (fy, ty) =>
        if d.toNat > 2 then
          match intersect1 a.lo.z a.hi.z b.lo.z b.hi.z with
          | none => none
          | some (fz, tz) => some ⟨⟨fx, fy, fz⟩, ⟨tx, ty, tz⟩⟩
        else some ⟨⟨fx, fy, 0⟩, ⟨tx, ty, 0⟩⟩
    else some ⟨⟨fx, 0, 0⟩, ⟨tx, 0, 0⟩⟩

/-- `laik_range_intersect`, src/space.c 177-205.  Outer `none`: failed
`assert(r1->space == r2->space)` (187); inner `none`: `return 0`. -/
def Rng.intersect (a b : Rng) : Option (Option Rng) :=
  match a.space, b.space with
  | some s, some t =>
    if s = t then
      match a.box.intersect s.dims b.box with
      | none => some none
      | some x => some (some ⟨some s, x⟩)
    else none
  | _, _ => some (some ⟨none, ⟨⟨0,0,0⟩,⟨0,0,0⟩⟩⟩)

/-- `laik_range_expand` on valid ranges, src/space.c 214-225: the new `dst`. -/
def Box.expand (d : Dims) (dst src : Box) : Box :=
  let fx := if src.lo.x < dst.lo.x then src.lo.x else dst.lo.x
  let tx := if src.hi.x > dst.hi.x then src.hi.x else dst.hi.x
  if d.toNat = 1 then ⟨⟨fx, dst.lo.y, dst.lo.z⟩, ⟨tx, dst.hi.y, dst.hi.z⟩⟩
  else
    let fy := if src.lo.y < dst.lo.y then src.lo.y else dst.lo.y
    let ty := if src.hi.y > dst.hi.y then src.hi.y else dst.hi.y
    if d.toNat = 2 then ⟨⟨fx, fy, dst.lo.z⟩, ⟨tx, ty, dst.hi.z⟩⟩
    else
      let fz := if src.lo.z < dst.lo.z then src.lo.z else dst.lo.z
      let tz := if src.hi.z > dst.hi.z then src.hi.z else dst.hi.z
      ⟨⟨fx, fy, fz⟩, ⟨tx, ty, tz⟩⟩

/-- `laik_range_expand`, src/space.c 208-226; `none` is the failed assert
in line 213. -/
def Rng.expand (dst src : Rng) : Option Rng :=
  match dst.space with
  | none => some dst
  | some s =>
    if src.space = some s then some ⟨some s, dst.box.expand s.dims src.box⟩
    else none

/-- `laik_range_within_range` on valid ranges, src/space.c 236-256. -/
def Box.within (d : Dims) (a b : Box) : Bool :=
  if a.lo.x < a.hi.x ∧ (a.lo.x < b.lo.x ∨ a.hi.x > b.hi.x) then false
  else if d.toNat = 1 then true
  else if a.lo.y < a.hi.y ∧ (a.lo.y < b.lo.y ∨ a.hi.y > b.hi.y) then false
  else if d.toNat = 2 then true
  else if a.lo.z < a.hi.z ∧ (a.lo.z < b.lo.z ∨ a.hi.z > b.hi.z) then false
  else true

/-- `laik_range_within_range`, src/space.c 229-257; `none` is the failed
assert in line 234. -/
def Rng.within (a b : Rng) : Option Bool :=
  match a.space, b.space with
  | some s, some t => if s = t then some (a.box.within s.dims b.box) else none
  | _, _ => some false

/-- `laik_range_isEqual` on valid ranges of one space, src/space.c 272-275. -/
def Box.isEqual (d : Dims) (a b : Box) : Bool :=
  if !indexIsEqual d a.lo b.lo then false
  else if !indexIsEqual d a.hi b.hi then false
  else true

/-- `laik_range_isEqual`, src/space.c 266-276. -/
def Rng.isEqual (a b : Rng) : Bool :=
  match a.space, b.space with
  | some s, some t => if s = t then a.box.isEqual s.dims b.box else false
  | _, _ => false

/-- `laik_range_size` on a valid range, src/space.c 285-296; `none` is a
failed `assert(to >= from)`.  `uint64_t` multiplication is modelled without
wrap-around. -/
def Box.size (d : Dims) (b : Box) : Option Nat :=
  if b.hi.x < b.lo.x then none
  else
    let s := (b.hi.x - b.lo.x).toNat
    if d.toNat > 1 then
      if b.hi.y < b.lo.y then none
      else
        let s := s * (b.hi.y - b.lo.y).toNat
        if d.toNat > 2 then
          if b.hi.z < b.lo.z then none
          else some (s * (b.hi.z - b.lo.z).toNat)
        else some s
    else some s

/-- `laik_range_size`, src/space.c 280-297. -/
def Rng.size (r : Rng) : Option Nat :=
  match r.space with
  | none => some 0
  | some s => r.box.size s.dims

/-! ### Helper lemmas -/

theorem mem_d1 (b : Box) (p : Idx) :
    Mem .d1 b p ↔ b.lo.x ≤ p.x ∧ p.x < b.hi.x := by
  constructor
  · intro h; exact h 0 (by decide)
  · intro h k hk
    have : k = 0 := by simp [Dims.toNat] at hk; omega
    subst this; exact h

theorem mem_d2 (b : Box) (p : Idx) :
    Mem .d2 b p ↔ (b.lo.x ≤ p.x ∧ p.x < b.hi.x) ∧ (b.lo.y ≤ p.y ∧ p.y < b.hi.y) := by
  constructor
  · intro h; exact ⟨h 0 (by decide), h 1 (by decide)⟩
  · intro h k hk
    simp [Dims.toNat] at hk
    match k, hk with
    | 0, _ => exact h.1
    | 1, _ => exact h.2

theorem mem_d3 (b : Box) (p : Idx) :
    Mem .d3 b p ↔ (b.lo.x ≤ p.x ∧ p.x < b.hi.x) ∧ (b.lo.y ≤ p.y ∧ p.y < b.hi.y) ∧
      (b.lo.z ≤ p.z ∧ p.z < b.hi.z) := by
  constructor
  · intro h; exact ⟨h 0 (by decide), h 1 (by decide), h 2 (by decide)⟩
  · intro h k hk
    simp [Dims.toNat] at hk
    match k, hk with
    | 0, _ => exact h.1
    | 1, _ => exact h.2.1
    | 2, _ => exact h.2.2

@[simp] theorem toNat_d1 : Dims.d1.toNat = 1 := rfl
@[simp] theorem toNat_d2 : Dims.d2.toNat = 2 := rfl
@[simp] theorem toNat_d3 : Dims.d3.toNat = 3 := rfl

/-- Decidability of membership (used by executable witnesses). -/
instance (d : Dims) (b : Box) (p : Idx) : Decidable (Mem d b p) :=
  match d with
  | .d1 => decidable_of_iff _ (mem_d1 b p).symm
  | .d2 => decidable_of_iff _ (mem_d2 b p).symm
  | .d3 => decidable_of_iff _ (mem_d3 b p).symm

theorem isEmpty_d1 (b : Box) : b.isEmpty .d1 = true ↔ b.lo.x ≥ b.hi.x := by
  simp [Box.isEmpty]
theorem isEmpty_d2 (b : Box) : b.isEmpty .d2 = true ↔ b.lo.x ≥ b.hi.x ∨ b.lo.y ≥ b.hi.y := by
  simp [Box.isEmpty]
theorem isEmpty_d3 (b : Box) : b.isEmpty .d3 = true ↔
    b.lo.x ≥ b.hi.x ∨ b.lo.y ≥ b.hi.y ∨ b.lo.z ≥ b.hi.z := by
  simp [Box.isEmpty]

theorem isEmpty_iff (d : Dims) (b : Box) : b.isEmpty d = true ↔ IsEmptySet d b := by
  unfold IsEmptySet
  cases d
  · rw [isEmpty_d1]; simp only [mem_d1]
    constructor
    · intro h p; omega
    · intro h; have := h b.lo; omega
  · rw [isEmpty_d2]; simp only [mem_d2]
    constructor
    · intro h p; omega
    · intro h; have := h b.lo; omega
  · rw [isEmpty_d3]; simp only [mem_d3]
    constructor
    · intro h p; omega
    · intro h; have := h b.lo; omega

theorem not_isEmpty_iff (d : Dims) (b : Box) : b.isEmpty d = false ↔ ∃ p, Mem d b p := by
  rw [← Bool.not_eq_true, isEmpty_iff]; unfold IsEmptySet
  exact Classical.not_forall_not

/-- A non-empty box contains its `from` corner. -/
theorem mem_lo_of_nonempty (d : Dims) (b : Box) (h : b.isEmpty d = false) : Mem d b b.lo := by
  obtain ⟨p, hp⟩ := (not_isEmpty_iff d b).1 h
  intro k hk
  have := hp k hk
  omega

/-- Replace one coordinate. -/
def Idx.set (p : Idx) (k : Nat) (v : Int) : Idx :=
  match k with
  | 0 => ⟨v, p.y, p.z⟩
  | 1 => ⟨p.x, v, p.z⟩
  | _ => ⟨p.x, p.y, v⟩

theorem Dims.toNat_le (d : Dims) : d.toNat ≤ 3 := by cases d <;> simp

theorem Idx.get_set (p : Idx) (k j : Nat) (v : Int) (hk : k < 3) (hj : j < 3) :
    (p.set k v).get j = if j = k then v else p.get j := by
  match k, hk, j, hj with
  | 0, _, 0, _ => rfl
  | 0, _, 1, _ => rfl
  | 0, _, 2, _ => rfl
  | 1, _, 0, _ => rfl
  | 1, _, 1, _ => rfl
  | 1, _, 2, _ => rfl
  | 2, _, 0, _ => rfl
  | 2, _, 1, _ => rfl
  | 2, _, 2, _ => rfl

/-- Changing one coordinate of a member to a value in bounds gives a member. -/
theorem mem_set (d : Dims) (b : Box) (p : Idx) (hp : Mem d b p) (k : Nat) (hk : k < d.toNat)
    (v : Int) (h1 : b.lo.get k ≤ v) (h2 : v < b.hi.get k) : Mem d b (p.set k v) := by
  intro j hj
  have := d.toNat_le
  rw [Idx.get_set p k j v (by omega) (by omega)]
  split
  · subst j; exact ⟨h1, h2⟩
  · exact hp j hj

/-- Conditions for all dimensions of `d`, unfolded. -/
theorem forall_dims (d : Dims) (P : Nat → Prop) :
    (∀ k, k < d.toNat → P k) ↔
      P 0 ∧ (d.toNat > 1 → P 1) ∧ (d.toNat > 2 → P 2) := by
  constructor
  · intro h; refine ⟨h 0 (by cases d <;> simp), fun g => h 1 g, fun g => h 2 g⟩
  · rintro ⟨h0, h1, h2⟩ k hk
    have := d.toNat_le
    match k with
    | 0 => exact h0
    | 1 => exact h1 hk
    | 2 => exact h2 hk
    | k+3 => omega

theorem subset_iff (d : Dims) (a b : Box) (ha : ∃ p, Mem d a p) :
    SubsetOf d a b ↔ ∀ k, k < d.toNat → b.lo.get k ≤ a.lo.get k ∧ a.hi.get k ≤ b.hi.get k := by
  obtain ⟨p, hp⟩ := ha
  constructor
  · intro h k hk
    have hb := hp k hk
    have := d.toNat_le
    have g1 := h _ (mem_set d a p hp k hk (a.lo.get k) (by omega) (by omega)) k hk
    have g2 := h _ (mem_set d a p hp k hk (a.hi.get k - 1) (by omega) (by omega)) k hk
    rw [Idx.get_set _ _ _ _ (by omega) (by omega)] at g1 g2
    simp at g1 g2; omega
  · intro h q hq k hk
    have := h k hk; have := hq k hk; omega

theorem within_iff_dims (d : Dims) (a b : Box) :
    a.within d b = true ↔ ∀ k, k < d.toNat → a.lo.get k < a.hi.get k →
      b.lo.get k ≤ a.lo.get k ∧ a.hi.get k ≤ b.hi.get k := by
  rw [forall_dims d (fun k => a.lo.get k < a.hi.get k →
      b.lo.get k ≤ a.lo.get k ∧ a.hi.get k ≤ b.hi.get k)]
  cases d <;> simp [Box.within, Idx.get] <;> omega

theorem expand_get (d : Dims) (a b : Box) (k : Nat) (hk : k < d.toNat) :
    (a.expand d b).lo.get k = min (a.lo.get k) (b.lo.get k) ∧
    (a.expand d b).hi.get k = max (a.hi.get k) (b.hi.get k) := by
  revert k
  rw [forall_dims d (fun k => (a.expand d b).lo.get k = min (a.lo.get k) (b.lo.get k) ∧
    (a.expand d b).hi.get k = max (a.hi.get k) (b.hi.get k))]
  have e1 : ∀ x y : Int, (if x < y then x else y) = min y x := by intros; split <;> omega
  have e2 : ∀ x y : Int, (if x > y then x else y) = max y x := by intros; split <;> omega
  cases d <;> simp [Box.expand, Idx.get, e1, e2]

theorem isEqual_iff_dims (d : Dims) (a b : Box) :
    a.isEqual d b = true ↔ ∀ k, k < d.toNat → a.lo.get k = b.lo.get k ∧ a.hi.get k = b.hi.get k := by
  rw [forall_dims d (fun k => a.lo.get k = b.lo.get k ∧ a.hi.get k = b.hi.get k)]
  cases d <;> simp [Box.isEqual, indexIsEqual, Idx.get] <;> grind

theorem intersect1_some {a b c e x y : Int} (h : intersect1 a b c e = some (x, y)) :
    x = max a c ∧ y = min b e ∧ a < e ∧ c < b := by
  unfold intersect1 at h
  split at h; · simp at h
  split at h; · simp at h
  simp only [Option.some.injEq, Prod.mk.injEq] at h
  obtain ⟨h1, h2⟩ := h
  subst h1; subst h2
  refine ⟨?_, ?_, by omega, by omega⟩ <;> split <;> omega

theorem intersect1_none {a b c e : Int} (h : intersect1 a b c e = none) : e ≤ a ∨ b ≤ c := by
  unfold intersect1 at h
  split at h; · left; omega
  split at h; · right; omega
  simp at h

theorem intersect_mem (d : Dims) (a b c : Box) (h : a.intersect d b = some c) (p : Idx) :
    Mem d c p ↔ Mem d a p ∧ Mem d b p := by
  unfold Box.intersect at h
  cases hx : intersect1 a.lo.x a.hi.x b.lo.x b.hi.x with
  | none => rw [hx] at h; simp at h
  | some v =>
    obtain ⟨fx, tx⟩ := v
    obtain ⟨h1, h2, h3, h4⟩ := intersect1_some hx
    rw [hx] at h
    cases d
    · simp at h; subst h; simp only [mem_d1]; omega
    · simp only [toNat_d2] at h
      cases hy : intersect1 a.lo.y a.hi.y b.lo.y b.hi.y with
      | none => rw [hy] at h; simp at h
      | some w =>
        obtain ⟨fy, ty⟩ := w
        obtain ⟨g1, g2, g3, g4⟩ := intersect1_some hy
        rw [hy] at h; simp at h; subst h; simp only [mem_d2]; omega
    · simp only [toNat_d3] at h
      cases hy : intersect1 a.lo.y a.hi.y b.lo.y b.hi.y with
      | none => rw [hy] at h; simp at h
      | some w =>
        obtain ⟨fy, ty⟩ := w
        obtain ⟨g1, g2, g3, g4⟩ := intersect1_some hy
        rw [hy] at h
        cases hz : intersect1 a.lo.z a.hi.z b.lo.z b.hi.z with
        | none => rw [hz] at h; simp at h
        | some u =>
          obtain ⟨fz, tz⟩ := u
          obtain ⟨e1, e2, e3, e4⟩ := intersect1_some hz
          rw [hz] at h; simp at h; subst h; simp only [mem_d3]; omega

theorem intersect_none (d : Dims) (a b : Box) (h : a.intersect d b = none) (p : Idx) :
    ¬ (Mem d a p ∧ Mem d b p) := by
  unfold Box.intersect at h
  cases hx : intersect1 a.lo.x a.hi.x b.lo.x b.hi.x with
  | none =>
    have := intersect1_none hx
    cases d
    · simp only [mem_d1]; omega
    · simp only [mem_d2]; omega
    · simp only [mem_d3]; omega
  | some v =>
    obtain ⟨fx, tx⟩ := v
    rw [hx] at h
    cases d
    · simp at h
    · simp only [toNat_d2] at h
      cases hy : intersect1 a.lo.y a.hi.y b.lo.y b.hi.y with
      | none => have := intersect1_none hy; simp only [mem_d2]; omega
      | some w => rw [hy] at h; simp at h
    · simp only [toNat_d3] at h
      cases hy : intersect1 a.lo.y a.hi.y b.lo.y b.hi.y with
      | none => have := intersect1_none hy; simp only [mem_d3]; omega
      | some w =>
        rw [hy] at h
        cases hz : intersect1 a.lo.z a.hi.z b.lo.z b.hi.z with
        | none => have := intersect1_none hz; simp only [mem_d3]; omega
        | some w => rw [hz] at h; simp at h

/-- For non-empty inputs a returned range is non-empty. -/
theorem intersect_nonempty (d : Dims) (a b c : Box) (ha : a.isEmpty d = false)
    (hb : b.isEmpty d = false) (h : a.intersect d b = some c) : c.isEmpty d = false := by
  rw [not_isEmpty_iff]
  refine ⟨c.lo, ?_⟩
  unfold Box.intersect at h
  cases hx : intersect1 a.lo.x a.hi.x b.lo.x b.hi.x with
  | none => rw [hx] at h; simp at h
  | some v =>
    obtain ⟨fx, tx⟩ := v
    obtain ⟨h1, h2, h3, h4⟩ := intersect1_some hx
    rw [hx] at h
    cases d
    · simp [Box.isEmpty] at ha hb
      simp at h; subst h; simp only [mem_d1]; omega
    · simp [Box.isEmpty] at ha hb
      simp only [toNat_d2] at h
      cases hy : intersect1 a.lo.y a.hi.y b.lo.y b.hi.y with
      | none => rw [hy] at h; simp at h
      | some w =>
        obtain ⟨fy, ty⟩ := w
        obtain ⟨g1, g2, g3, g4⟩ := intersect1_some hy
        rw [hy] at h; simp at h; subst h; simp only [mem_d2]; omega
    · simp [Box.isEmpty] at ha hb
      simp only [toNat_d3] at h
      cases hy : intersect1 a.lo.y a.hi.y b.lo.y b.hi.y with
      | none => rw [hy] at h; simp at h
      | some w =>
        obtain ⟨fy, ty⟩ := w
        obtain ⟨g1, g2, g3, g4⟩ := intersect1_some hy
        rw [hy] at h
        cases hz : intersect1 a.lo.z a.hi.z b.lo.z b.hi.z with
        | none => rw [hz] at h; simp at h
        | some u =>
          obtain ⟨fz, tz⟩ := u
          obtain ⟨e1, e2, e3, e4⟩ := intersect1_some hz
          rw [hz] at h; simp at h; subst h; simp only [mem_d3]; omega

end Laik
