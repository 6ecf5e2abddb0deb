import Verif.Model.Range
/-!
# C01, C02: range operations against their set semantics
-/

namespace Laik

/-! ## C01 -/

/-- A returned intersection denotes exactly the set intersection. -/
theorem C01_intersect_mem (s : Space) (a b : Box) (r : Rng)
    (h : Rng.intersect ⟨some s, a⟩ ⟨some s, b⟩ = some (some r)) :
    r.space = some s ∧ ∀ p, Mem s.dims r.box p ↔ Mem s.dims a p ∧ Mem s.dims b p := by
  simp only [Rng.intersect, if_true] at h
  cases hc : a.intersect s.dims b with
  | none => rw [hc] at h; simp at h
  | some c =>
    rw [hc] at h; simp at h; subst h
    exact ⟨rfl, intersect_mem _ _ _ _ hc⟩

/-- With non-empty inputs, null is returned exactly when no index is shared,
and a returned range is never empty. -/
theorem C01_intersect_null_iff (s : Space) (a b : Box)
    (ha : ∃ p, Mem s.dims a p) (hb : ∃ p, Mem s.dims b p) :
    (Rng.intersect ⟨some s, a⟩ ⟨some s, b⟩ = some none ↔
      ∀ p, ¬ (Mem s.dims a p ∧ Mem s.dims b p)) := by
  simp only [Rng.intersect, if_true]
  cases hc : a.intersect s.dims b with
  | none => simp; intro p h1 h2; exact intersect_none _ _ _ hc p ⟨h1, h2⟩
  | some c =>
    simp
    have hne := intersect_nonempty _ _ _ _ ((not_isEmpty_iff _ _).2 ha)
      ((not_isEmpty_iff _ _).2 hb) hc
    obtain ⟨p, hp⟩ := (not_isEmpty_iff _ _).1 hne
    exact ⟨p, (intersect_mem _ _ _ _ hc p).1 hp⟩

/-- The call never aborts for two ranges of the same space, and aborts exactly
for two valid ranges of different spaces. -/
theorem C01_intersect_abort_iff (a b : Rng) :
    a.intersect b = none ↔ ∃ s t, a.space = some s ∧ b.space = some t ∧ s ≠ t := by
  obtain ⟨sa, ba⟩ := a; obtain ⟨sb, bb⟩ := b
  cases sa <;> cases sb <;> simp [Rng.intersect]
  rename_i s t
  by_cases h : s = t
  · subst h; simp; cases ba.intersect s.dims bb <;> simp
  · simp [h]

/-- Symmetry. -/
theorem C01_intersect_comm (a b : Rng) : a.intersect b = b.intersect a := by
  have h1 : ∀ x y z w, intersect1 x y z w = intersect1 z w x y := by
    intro x y z w; unfold intersect1
    by_cases p : x ≥ w <;> by_cases q : z ≥ y <;> simp [p, q]
    constructor <;> split <;> split <;> omega
  have h2 : ∀ (d : Dims) (a b : Box), a.intersect d b = b.intersect d a := by
    intro d a b; unfold Box.intersect
    rw [h1 a.lo.x, h1 a.lo.y, h1 a.lo.z]
  obtain ⟨sa, ba⟩ := a; obtain ⟨sb, bb⟩ := b
  cases sa <;> cases sb <;> simp [Rng.intersect]
  rename_i s t
  by_cases h : s = t
  · subst h; simp only [if_true]; rw [h2]
  · simp [h, Ne.symm h]

/-- Intersecting with an invalid range gives an invalid (hence empty) range. -/
theorem C01_intersect_invalid (a b : Rng) (h : a.space = none ∨ b.space = none) :
    ∃ r, a.intersect b = some (some r) ∧ r.space = none ∧ r.isEmpty = true := by
  obtain ⟨sa, ba⟩ := a; obtain ⟨sb, bb⟩ := b
  cases sa <;> cases sb <;> simp_all [Rng.intersect, Rng.isEmpty]

/-- Disagreement with the documented "return 0 if intersection is empty": for
an empty input range strictly inside another one, a non-null (empty) range is
returned.  [5,5) with [0,10). -/
theorem C01_empty_input_not_null :
    ∃ (s : Space) (a b r : Box),
      Rng.intersect ⟨some s, a⟩ ⟨some s, b⟩ = some (some ⟨some s, r⟩) ∧
      ∀ p, ¬ (Mem s.dims a p ∧ Mem s.dims b p) := by
  refine ⟨⟨0, .d1, ⟨⟨0,0,0⟩,⟨10,0,0⟩⟩⟩, ⟨⟨5,0,0⟩,⟨5,0,0⟩⟩, ⟨⟨0,0,0⟩,⟨10,0,0⟩⟩,
    ⟨⟨5,0,0⟩,⟨5,0,0⟩⟩, by decide, ?_⟩
  intro p; simp only [mem_d1]; omega

example : Rng.intersect ⟨some ⟨0, .d2, ⟨⟨0,0,0⟩,⟨9,9,0⟩⟩⟩, ⟨⟨0,2,0⟩,⟨5,7,0⟩⟩⟩
    ⟨some ⟨0, .d2, ⟨⟨0,0,0⟩,⟨9,9,0⟩⟩⟩, ⟨⟨3,0,0⟩,⟨9,4,0⟩⟩⟩ =
    some (some ⟨some ⟨0, .d2, ⟨⟨0,0,0⟩,⟨9,9,0⟩⟩⟩, ⟨⟨3,2,0⟩,⟨5,4,0⟩⟩⟩) := by decide
example : ∃ p, Mem .d2 ⟨⟨0,2,0⟩,⟨5,7,0⟩⟩ p := ⟨⟨0,2,0⟩, by decide⟩

/-! ## C02 -/

/-- `laik_range_isEmpty`: no index. -/
theorem C02_isEmpty_iff (s : Space) (b : Box) :
    Rng.isEmpty ⟨some s, b⟩ = true ↔ ∀ p, ¬ Mem s.dims b p := by
  simp only [Rng.isEmpty]; exact isEmpty_iff _ _

/-- Containment test equals set inclusion for non-empty ranges. -/
theorem C02_within_iff (s : Space) (a b : Box) (ha : ∃ p, Mem s.dims a p) :
    Rng.within ⟨some s, a⟩ ⟨some s, b⟩ = some true ↔ SubsetOf s.dims a b := by
  simp only [Rng.within, if_true, Option.some.injEq]
  rw [within_iff_dims, subset_iff _ _ _ ha]
  obtain ⟨q, hq⟩ := ha
  constructor
  · intro h k hk; have := hq k hk; exact h k hk (by omega)
  · intro h k hk _; exact h k hk

/-- For any `a` (also empty), a positive answer implies inclusion. -/
theorem C02_within_sound (s : Space) (a b : Box)
    (h : Rng.within ⟨some s, a⟩ ⟨some s, b⟩ = some true) : SubsetOf s.dims a b := by
  by_cases he : ∃ p, Mem s.dims a p
  · exact (C02_within_iff s a b he).1 h
  · intro p hp; exact absurd ⟨p, hp⟩ he

/-- Disagreement: an empty set is a subset of everything, but a range empty in
one dimension may be reported as not contained. -/
theorem C02_within_incomplete_empty :
    ∃ (s : Space) (a b : Box), SubsetOf s.dims a b ∧
      Rng.within ⟨some s, a⟩ ⟨some s, b⟩ = some false := by
  refine ⟨⟨0, .d2, ⟨⟨0,0,0⟩,⟨9,9,0⟩⟩⟩, ⟨⟨3,0,0⟩,⟨3,9,0⟩⟩, ⟨⟨0,0,0⟩,⟨5,5,0⟩⟩, ?_, by decide⟩
  intro p; simp only [mem_d2]; omega

/-- Expanding yields the smallest box containing both ranges. -/
theorem C02_expand_least (s : Space) (a b : Box)
    (ha : ∃ p, Mem s.dims a p) (hb : ∃ p, Mem s.dims b p) :
    ∃ r, Rng.expand ⟨some s, a⟩ ⟨some s, b⟩ = some ⟨some s, r⟩ ∧
      SubsetOf s.dims a r ∧ SubsetOf s.dims b r ∧
      ∀ c : Box, SubsetOf s.dims a c → SubsetOf s.dims b c → SubsetOf s.dims r c := by
  refine ⟨a.expand s.dims b, by simp [Rng.expand], ?_, ?_, ?_⟩
  · intro p hp k hk; have := hp k hk; have := expand_get _ a b k hk; omega
  · intro p hp k hk; have := hp k hk; have := expand_get _ a b k hk; omega
  · intro c h1 h2 p hp k hk
    rw [subset_iff _ _ _ ha] at h1
    rw [subset_iff _ _ _ hb] at h2
    have := h1 k hk; have := h2 k hk; have := hp k hk; have := expand_get _ a b k hk
    omega

/-- Equality test equals set equality for non-empty ranges. -/
theorem C02_isEqual_iff (s : Space) (a b : Box)
    (ha : ∃ p, Mem s.dims a p) (hb : ∃ p, Mem s.dims b p) :
    Rng.isEqual ⟨some s, a⟩ ⟨some s, b⟩ = true ↔
      ∀ p, Mem s.dims a p ↔ Mem s.dims b p := by
  simp only [Rng.isEqual, if_true]
  rw [isEqual_iff_dims]
  constructor
  · intro h p
    constructor <;> intro hp k hk <;> have := h k hk <;> have := hp k hk <;> omega
  · intro h k hk
    have h1 := (subset_iff _ a b ha).1 (fun p => (h p).1) k hk
    have h2 := (subset_iff _ b a hb).1 (fun p => (h p).2) k hk
    omega

/-- All indexes `[a, a+n)`. -/
private def seg (a : Int) (n : Nat) : List Int := (List.range n).map (fun i : Nat => a + (i : Int))

private theorem mem_seg {a : Int} {n : Nat} {x : Int} :
    x ∈ seg a n ↔ a ≤ x ∧ x < a + n := by
  simp only [seg, List.mem_map, List.mem_range]
  constructor
  · rintro ⟨i, hi, rfl⟩; omega
  · intro h; exact ⟨(x - a).toNat, by omega, by omega⟩

private theorem nodup_seg (a : Int) (n : Nat) : (seg a n).Nodup := by
  unfold seg
  exact List.Pairwise.map _ (fun x y h => by simp only [ne_eq] at *; omega) List.nodup_range

private theorem length_seg (a : Int) (n : Nat) : (seg a n).length = n := by simp [seg]

/-- Enumeration of a cartesian product. -/
private def prodL {α β : Type} (l : List α) (m : List β) : List (α × β) :=
  l.flatMap (fun a => m.map (fun b => (a, b)))

private theorem nodup_prodL {α β : Type} (l : List α) (m : List β) (hl : l.Nodup) (hm : m.Nodup) :
    (prodL l m).Nodup := by
  induction l with
  | nil => simp [prodL]
  | cons a l ih =>
    simp only [prodL, List.flatMap_cons]
    rw [List.nodup_cons] at hl
    refine List.nodup_append.2 ⟨List.Pairwise.map _ (fun x y h => by simpa using h) hm,
      ih hl.2, ?_⟩
    intro x hx y hy heq
    subst heq
    simp only [List.mem_map, List.mem_flatMap] at hx hy
    obtain ⟨b, _, rfl⟩ := hx
    obtain ⟨a', ha', b', _, h⟩ := hy
    simp at h
    rw [h.1] at ha'
    exact hl.1 ha'

private theorem length_prodL {α β : Type} (l : List α) (m : List β) :
    (prodL l m).length = l.length * m.length := by
  induction l with
  | nil => simp [prodL]
  | cons a l ih =>
    simp only [prodL, List.flatMap_cons, List.length_append, List.length_map,
      List.length_cons] at *
    rw [ih]; rw [Nat.add_mul]; omega

private theorem mem_prodL {α β : Type} (l : List α) (m : List β) (x : α × β) :
    x ∈ prodL l m ↔ x.1 ∈ l ∧ x.2 ∈ m := by
  obtain ⟨a, b⟩ := x
  simp [prodL]

private theorem canon_d1 (p : Idx) : Canon .d1 p ↔ p.y = 0 ∧ p.z = 0 := by
  constructor
  · intro h; exact ⟨h 1 (by decide) (by decide), h 2 (by decide) (by decide)⟩
  · intro h k hk h3
    match k with
    | 0 => simp at hk
    | 1 => exact h.1
    | _+2 => exact h.2
private theorem canon_d2 (p : Idx) : Canon .d2 p ↔ p.z = 0 := by
  constructor
  · intro h; exact h 2 (by decide) (by decide)
  · intro h k hk h3
    match k with
    | 0 => simp at hk
    | 1 => simp at hk
    | _+2 => exact h
private theorem canon_d3 (p : Idx) : Canon .d3 p ↔ True := by
  simp only [iff_true]
  intro k hk h3; simp at hk; omega

/-- `laik_range_size` is the number of indexes: the canonical points of the
range can be listed without repetition in a list of that length. -/
theorem C02_size_counts (s : Space) (b : Box) (n : Nat)
    (h : Rng.size ⟨some s, b⟩ = some n) :
    ∃ l : List Idx, l.Nodup ∧ (∀ p, p ∈ l ↔ Canon s.dims p ∧ Mem s.dims b p) ∧ l.length = n := by
  simp only [Rng.size] at h
  generalize s.dims = d at *
  have hw : ∀ a c : Int, a ≤ c → a + ((c - a).toNat : Int) = c := by intros; omega
  cases d
  · simp [Box.size] at h
    obtain ⟨h1, h2⟩ := h
    refine ⟨(seg b.lo.x (b.hi.x - b.lo.x).toNat).map (fun x => ⟨x, 0, 0⟩), ?_, ?_, ?_⟩
    · exact List.Pairwise.map _ (fun x y h => by simpa using h) (nodup_seg _ _)
    · rintro ⟨x, y, z⟩
      rw [canon_d1, mem_d1]
      simp only [List.mem_map, mem_seg, Idx.mk.injEq, hw _ _ h1]
      constructor
      · rintro ⟨a, ha, rfl, rfl, rfl⟩; exact ⟨⟨rfl, rfl⟩, ha⟩
      · rintro ⟨⟨rfl, rfl⟩, ha⟩; exact ⟨x, ha, rfl, rfl, rfl⟩
    · simp [length_seg, h2]
  · simp [Box.size] at h
    obtain ⟨h1, h3, h2⟩ := h
    refine ⟨(prodL (seg b.lo.x (b.hi.x - b.lo.x).toNat) (seg b.lo.y (b.hi.y - b.lo.y).toNat)).map
      (fun q => ⟨q.1, q.2, 0⟩), ?_, ?_, ?_⟩
    · exact List.Pairwise.map _ (fun x y h => by simpa [Prod.ext_iff] using h)
        (nodup_prodL _ _ (nodup_seg _ _) (nodup_seg _ _))
    · rintro ⟨x, y, z⟩
      rw [canon_d2, mem_d2]
      simp only [List.mem_map, mem_prodL, mem_seg, Idx.mk.injEq, hw _ _ h1, hw _ _ h3]
      constructor
      · rintro ⟨a, ha, rfl, rfl, rfl⟩; exact ⟨rfl, ha⟩
      · rintro ⟨rfl, ha⟩; exact ⟨(x, y), ha, rfl, rfl, rfl⟩
    · simp [length_seg, length_prodL, h2]
  · simp [Box.size] at h
    obtain ⟨h1, h3, h4, h2⟩ := h
    refine ⟨(prodL (prodL (seg b.lo.x (b.hi.x - b.lo.x).toNat) (seg b.lo.y (b.hi.y - b.lo.y).toNat))
      (seg b.lo.z (b.hi.z - b.lo.z).toNat)).map
      (fun q => ⟨q.1.1, q.1.2, q.2⟩), ?_, ?_, ?_⟩
    · exact List.Pairwise.map _ (fun x y h => by simpa [Prod.ext_iff, and_assoc] using h)
        (nodup_prodL _ _ (nodup_prodL _ _ (nodup_seg _ _) (nodup_seg _ _)) (nodup_seg _ _))
    · rintro ⟨x, y, z⟩
      rw [canon_d3, mem_d3]
      simp only [List.mem_map, mem_prodL, mem_seg, Idx.mk.injEq, hw _ _ h1, hw _ _ h3, hw _ _ h4]
      constructor
      · rintro ⟨a, ⟨⟨ha1, ha2⟩, ha3⟩, rfl, rfl, rfl⟩; exact ⟨trivial, ha1, ha2, ha3⟩
      · rintro ⟨_, ha1, ha2, ha3⟩; exact ⟨((x, y), z), ⟨⟨ha1, ha2⟩, ha3⟩, rfl, rfl, rfl⟩
    · simp [length_seg, length_prodL, h2]

/-- `laik_range_size` succeeds exactly when no dimension is inverted. -/
theorem C02_size_ok_iff (s : Space) (b : Box) :
    (∃ n, Rng.size ⟨some s, b⟩ = some n) ↔ ∀ k, k < s.dims.toNat → b.lo.get k ≤ b.hi.get k := by
  simp only [Rng.size]
  rw [forall_dims s.dims (fun k => b.lo.get k ≤ b.hi.get k)]
  cases s.dims <;> simp [Box.size, Idx.get]

example : Rng.size ⟨some ⟨0, .d3, ⟨⟨0,0,0⟩,⟨9,9,9⟩⟩⟩, ⟨⟨-1,2,0⟩,⟨3,4,5⟩⟩⟩ = some 40 := by decide
example : Rng.within ⟨some ⟨0, .d2, ⟨⟨0,0,0⟩,⟨9,9,0⟩⟩⟩, ⟨⟨1,2,0⟩,⟨3,4,0⟩⟩⟩
    ⟨some ⟨0, .d2, ⟨⟨0,0,0⟩,⟨9,9,0⟩⟩⟩, ⟨⟨0,2,0⟩,⟨3,5,0⟩⟩⟩ = some true := by decide

end Laik
