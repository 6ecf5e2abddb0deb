import Verif.Model.Split
import Mathlib.Data.List.Perm.Subperm
/-!
# C13 (bisection partitioner) and C14 (grid partitioner)
-/

namespace Laik

/-! ### C13 -/

/-- C13, whenever the partitioner finishes: the ranges tile the space (every
index in exactly one range, none outside), tasks are in the group and each
task gets at most one range (tasks strictly increase). -/
theorem C13_bisection_tiles (d : Dims) (sp : Box) (n : Nat) (hv : sp.Valid d) (cs : List Call)
    (h : bisect d sp 0 n = some cs) :
    (∀ p, Mem d sp p → ∃! c, c ∈ cs ∧ Mem d c.box p) ∧
    (∀ c ∈ cs, ∀ p, Mem d c.box p → Mem d sp p) ∧
    (∀ c ∈ cs, c.task < n) ∧ (cs.map (·.task)).Nodup := by
  obtain ⟨hc, ht, hp⟩ := bisect_cover d sp 0 n hv cs h
  refine ⟨fun p hm => hc.unique p hm, fun c h1 p h2 => (hc.cover p).2 ⟨c, h1, h2⟩,
    fun c h1 => (ht c h1).2.1, ?_⟩
  unfold List.Nodup
  rw [List.pairwise_map]
  exact hp.imp (fun h => by omega)

/-- The case used as example: 4x3 indices, 3 processes. -/
example : (bisect .d2 ⟨⟨0,0,0⟩,⟨4,3,0⟩⟩ 0 3).isSome = true ∧ Box.Valid .d2 ⟨⟨0,0,0⟩,⟨4,3,0⟩⟩ := by
  refine ⟨by decide +kernel, ?_⟩
  intro k hk
  have : k = 0 ∨ k = 1 := by simp at hk; omega
  rcases this with rfl | rfl <;> decide

/-- C13, termination without abort and no process without range: if some
dimension is at least as wide as the number of processes, each process gets
exactly one non-empty range. -/
theorem C13_bisection_finishes (d : Dims) (sp : Box) (n : Nat) (hn : 0 < n) (hv : sp.Valid d)
    (hne : ∀ j, j < d.toNat → sp.lo.get j < sp.hi.get j)
    (hw : ∃ j, j < d.toNat ∧ (n : Int) ≤ sp.hi.get j - sp.lo.get j) :
    ∃ cs, bisect d sp 0 n = some cs ∧ (∀ t, t < n → ∃ c ∈ cs, c.task = t) ∧
      ∀ c ∈ cs, ∃ p, Mem d c.box p := by
  obtain ⟨cs, e, hl, hc⟩ := bisect_total d sp 0 n hv hn
    (fun j hj => by have := hne j hj; unfold Box.width; omega)
    (by obtain ⟨j, hj, h⟩ := hw; exact ⟨j, hj, by unfold Box.width; omega⟩)
  obtain ⟨_, ht, hp⟩ := bisect_cover d sp 0 n hv cs e
  refine ⟨cs, e, ?_, ?_⟩
  · have hnd : (cs.map (·.task)).Nodup := by
      unfold List.Nodup
      rw [List.pairwise_map]; exact hp.imp (fun h => by omega)
    have hsub : cs.map (·.task) ⊆ List.range n := by
      intro t hm
      obtain ⟨c, hc, rfl⟩ := List.mem_map.1 hm
      exact List.mem_range.2 (ht c hc).2.1
    have hsp := List.Nodup.subperm hnd hsub
    have hperm := hsp.perm_of_length_le (by simp; omega)
    intro t htn
    have := hperm.mem_iff.2 (List.mem_range.2 htn)
    obtain ⟨c, hc, e⟩ := List.mem_map.1 this
    exact ⟨c, hc, e⟩
  · intro c hcm
    refine ⟨c.box.lo, fun j hj => ?_⟩
    have := hc c hcm j hj
    unfold Box.width at this; omega

example : (bisect .d1 ⟨⟨-3,0,0⟩,⟨4,0,0⟩⟩ 0 5).map List.length = some 5 := by decide +kernel

/-- C13, powers of two: the partitioner finishes with non-empty ranges on any
non-empty space, however small. -/
theorem C13_bisection_finishes_pow2 (d : Dims) (sp : Box) (m : Nat) (hv : sp.Valid d)
    (hne : ∀ j, j < d.toNat → sp.lo.get j < sp.hi.get j) :
    ∃ cs, bisect d sp 0 (2 ^ m) = some cs ∧ ∀ c ∈ cs, ∃ p, Mem d c.box p := by
  obtain ⟨cs, e, hc⟩ := bisect_total_pow2 d sp 0 m hv
    (fun j hj => by have := hne j hj; unfold Box.width; omega)
  rw [Nat.zero_add] at e
  refine ⟨cs, e, fun c hcm => ⟨c.box.lo, fun j hj => ?_⟩⟩
  have := hc c hcm j hj
  unfold Box.width at this; omega

example : (bisect .d3 ⟨⟨0,0,0⟩,⟨2,1,2⟩⟩ 0 16).map List.length = some 4 := by decide +kernel

/-- Code disagrees with C13 in general: with 2 indices and 5 processes the
recursion reaches an empty range for two processes and aborts (assert 401). -/
theorem C13_bisection_aborts : bisect .d1 ⟨⟨0,0,0⟩,⟨2,0,0⟩⟩ 0 5 = none := by decide +kernel

/-- 2 indices and 3 processes: an empty range is handed to process 0. -/
theorem C13_bisection_empty_range :
    bisect .d1 ⟨⟨0,0,0⟩,⟨2,0,0⟩⟩ 0 3 =
      some [⟨0, ⟨⟨0,0,0⟩,⟨0,0,0⟩⟩, 1⟩, ⟨1, ⟨⟨0,0,0⟩,⟨1,0,0⟩⟩, 1⟩, ⟨2, ⟨⟨1,0,0⟩,⟨2,0,0⟩⟩, 1⟩] := by
  decide +kernel

/-! ### C14 -/

/-- C14 for any border computation which is monotone, starts at the lower
bound, ends at or above the upper bound and is otherwise not above it: the
grid ranges tile the space and each is given to another process of the group.
(The double computation of the code does not always meet this, see below.) -/
theorem C14_grid_tiles_partial (sp : Box) (n : Nat) (bx bY bz : Nat → Int) (nx ny nz : Nat)
    (hn : nx * ny * nz ≤ n)
    (hx : GoodBorders bx nx sp.lo.x sp.hi.x) (hy : GoodBorders bY ny sp.lo.y sp.hi.y)
    (hz : GoodBorders bz nz sp.lo.z sp.hi.z) :
    ∃ cs, gridCalls .d3 sp n bx bY bz nx ny nz = some cs ∧
      (∀ p, Mem .d3 sp p → ∃! c, c ∈ cs ∧ Mem .d3 c.box p) ∧
      (∀ c ∈ cs, ∀ p, Mem .d3 c.box p → Mem .d3 sp p) ∧
      (∀ c ∈ cs, c.task < n) ∧ (cs.map (·.task)).Nodup := by
  unfold gridCalls
  rw [if_pos ⟨rfl, hn⟩]
  refine ⟨_, rfl, ?_⟩
  generalize hB : gridBoxes (gridIvs bx nx sp.hi.x) (gridIvs bY ny sp.hi.y) (gridIvs bz nz sp.hi.z) = bs
  have hlen : bs.length ≤ n := by
    rw [← hB, gridBoxes_length]
    refine Nat.le_trans (Nat.mul_le_mul (Nat.mul_le_mul (gridIvs_length _ _ _) (gridIvs_length _ _ _))
      (gridIvs_length _ _ _)) hn
  rw [List.take_of_length_le (by simpa using hlen)]
  have hcov : ∀ p, Mem .d3 sp p ↔ ∃ b ∈ bs, Mem .d3 b p := by
    intro p
    rw [mem_d3, gridIvs_cover hx, gridIvs_cover hy, gridIvs_cover hz]
    subst hB
    constructor
    · rintro ⟨⟨x, hx, hx'⟩, ⟨y, hy, hy'⟩, ⟨z, hz, hz'⟩⟩
      refine ⟨⟨⟨x.1, y.1, z.1⟩, ⟨x.2, y.2, z.2⟩⟩, (gridBoxes_mem _ _ _ _).2 ⟨hx, hy, hz⟩, ?_⟩
      rw [mem_d3]; exact ⟨hx', hy', hz'⟩
    · rintro ⟨b, hb, hm⟩
      rw [gridBoxes_mem] at hb
      rw [mem_d3] at hm
      exact ⟨⟨_, hb.1, hm.1⟩, ⟨_, hb.2.1, hm.2.1⟩, ⟨_, hb.2.2, hm.2.2⟩⟩
  have hpw : bs.Pairwise (fun a b => ∀ p, ¬ (Mem .d3 a p ∧ Mem .d3 b p)) := by
    rw [← hB]; exact gridBoxes_pairwise (gridIvs_pairwise hx) (gridIvs_pairwise hy) (gridIvs_pairwise hz)
  have hfst : ∀ (l : List Box) (k : Nat),
      ((l.zipIdx k).map (fun e => (⟨e.2, e.1, 1⟩ : Call))).map (·.box) = l := by
    intro l
    induction l with
    | nil => intro k; rfl
    | cons a l ih => intro k; simp only [List.zipIdx_cons, List.map_cons, ih]
  have hsnd : ∀ (l : List Box) (k : Nat),
      ((l.zipIdx k).map (fun e => (⟨e.2, e.1, 1⟩ : Call))).map (·.task) = List.range' k l.length := by
    intro l
    induction l with
    | nil => intro k; rfl
    | cons a l ih => intro k; simp only [List.zipIdx_cons, List.map_cons, ih, List.length_cons, List.range'_succ]
  have hE : ExactCover .d3 sp ((bs.zipIdx).map (fun e => (⟨e.2, e.1, 1⟩ : Call))) := by
    have h1 := hfst bs 0
    constructor
    · intro p
      rw [hcov p]
      constructor
      · rintro ⟨b, hb, hm⟩
        rw [← h1] at hb
        obtain ⟨c, hc, rfl⟩ := List.mem_map.1 hb
        exact ⟨c, hc, hm⟩
      · rintro ⟨c, hc, hm⟩
        refine ⟨c.box, ?_, hm⟩
        rw [← h1]; exact List.mem_map.2 ⟨c, hc, rfl⟩
    · rw [← h1, List.pairwise_map] at hpw
      exact hpw
  have h2 := hsnd bs 0
  refine ⟨fun p hm => hE.unique p hm, fun c h1 p h2 => (hE.cover p).2 ⟨c, h1, h2⟩, ?_, ?_⟩
  · intro c hc
    have : c.task ∈ List.range' 0 bs.length := by rw [← h2]; exact List.mem_map.2 ⟨c, hc, rfl⟩
    rw [List.mem_range'_1] at this; omega
  · rw [h2]; exact List.nodup_range'

/-- Exact (infinitely precise) borders meet the condition. -/
theorem C14_exact_borders (lo hi : Int) (h : lo ≤ hi) (n : Nat) (hn : 0 < n) :
    GoodBorders (fun k => lo + (k * (hi - lo)) / n) n lo hi := by
  have hn' : (0:Int) < n := by omega
  constructor
  · intro k _
    have : (k:Int) * (hi - lo) / n ≤ ((k+1 : Nat):Int) * (hi - lo) / n := by
      apply Int.ediv_le_ediv hn'
      apply Int.mul_le_mul_of_nonneg_right <;> omega
    omega
  · simp
  · rw [Int.mul_ediv_cancel_left _ (by omega)]; omega
  · intro k hk
    have : (k:Int) * (hi - lo) / n ≤ (n:Int) * (hi - lo) / n := by
      apply Int.ediv_le_ediv hn'
      apply Int.mul_le_mul_of_nonneg_right <;> omega
    rw [Int.mul_ediv_cancel_left _ (by omega)] at this
    omega

/-- Exact borders: tiling of a space with 5x4x3 indices by 2x3x1 blocks. -/
example : ∃ cs, gridCalls .d3 ⟨⟨0,0,0⟩,⟨5,4,3⟩⟩ 7 (fun k => 0 + (k * (5 - 0)) / (2:Nat))
    (fun k => 0 + (k * (4 - 0)) / (3:Nat)) (fun k => 0 + (k * (3 - 0)) / (1:Nat)) 2 3 1 = some cs ∧
    cs.length = 6 := ⟨_, rfl, by decide +kernel⟩

theorem flDiv_exact (q den : Nat) (hd : 0 < den) :
    (flDiv (q * den) den).1 = q * 2 ^ (flDiv (q * den) den).2 := by
  unfold flDiv
  simp only
  generalize (if q * den * 2 ^ (53 + den.log2 - (q * den).log2) / den ≥ 2 ^ 53 then
    53 + den.log2 - (q * den).log2 - 1 else 53 + den.log2 - (q * den).log2) = s
  have e : q * den * 2 ^ s = den * (q * 2 ^ s) := by
    rw [Nat.mul_comm q den, Nat.mul_assoc]
  rw [e, Nat.mul_mod_right, Nat.mul_div_cancel_left _ hd, if_neg]
  omega

theorem dblBorder_exact (q n k : Nat) (hn : 0 < n) : dblBorder (q * n) n k = (k * q : Nat) := by
  unfold dblBorder
  split
  · rename_i h; subst h; simp
  · simp only
    have h1 := flDiv_exact q n hn
    generalize flDiv (q * n) n = st at *
    rw [h1, ← Nat.mul_assoc]
    have hp : 0 < 2 ^ st.2 := Nat.pos_of_ne_zero (by simp)
    have h2 := flDiv_exact (k * q) (2 ^ st.2) hp
    generalize flDiv (k * q * 2 ^ st.2) (2 ^ st.2) = pr at *
    rw [h2, Nat.mul_div_cancel _ (Nat.pos_of_ne_zero (by simp))]

/-- Borders in binary64 are good if the number of blocks divides the size
(sizes below `2^53`, where the arithmetic model is valid). -/
theorem C14_double_borders_divisible (q n : Nat) (hn : 0 < n) (_hs : q * n < 2 ^ 53) :
    GoodBorders (dblBorder (q * n) n) n 0 ((q * n : Nat) : Int) := by
  constructor
  · intro k _
    rw [dblBorder_exact _ _ _ hn, dblBorder_exact _ _ _ hn, Nat.succ_mul]; omega
  · rw [dblBorder_exact _ _ _ hn]; simp
  · rw [dblBorder_exact _ _ _ hn, Nat.mul_comm]; exact Int.le_refl _
  · intro k hk
    rw [dblBorder_exact _ _ _ hn]
    have : k * q ≤ q * n := by rw [Nat.mul_comm]; exact Nat.mul_le_mul_left _ (by omega)
    omega

example : dblBorder 63 7 7 = 63 ∧ dblBorder 62 7 7 = 62 ∧ dblBorder 61 7 7 = 60 := by decide +kernel

/-- Code disagrees with C14: dividing 61 indices into 7 blocks, the rounded
end of the last block is 60 (the product of 7 and the rounded step is below
61), so index 60 is given to nobody. -/
theorem C14_grid_loses_index :
    ∃ cs, gridCalls .d3 ⟨⟨0,0,0⟩,⟨61,1,1⟩⟩ 7 (dblBorder 61 7) (dblBorder 1 1) (dblBorder 1 1) 7 1 1 = some cs ∧
      Mem .d3 ⟨⟨0,0,0⟩,⟨61,1,1⟩⟩ ⟨60,0,0⟩ ∧ ∀ c ∈ cs, ¬ Mem .d3 c.box ⟨60,0,0⟩ := by
  refine ⟨_, rfl, by rw [mem_d3]; decide, ?_⟩
  have h : ∀ c ∈ (((gridBoxes (gridIvs (dblBorder 61 7) 7 61) (gridIvs (dblBorder 1 1) 1 1)
      (gridIvs (dblBorder 1 1) 1 1)).zipIdx.take 7).map (fun e => (⟨e.2, e.1, 1⟩ : Call))),
      c.box.hi.x ≤ 60 := by decide +kernel
  intro c hc hm
  have := h c hc
  rw [mem_d3] at hm
  simp only at hm; omega

/-- Aborts: other dimensionality, or fewer processes than blocks. -/
theorem C14_grid_aborts (d : Dims) (sp : Box) (n : Nat) (bx bY bz : Nat → Int) (nx ny nz : Nat) :
    gridCalls d sp n bx bY bz nx ny nz = none ↔ (d ≠ .d3 ∨ n < nx * ny * nz) := by
  unfold gridCalls
  split
  · rename_i h; simp [h.1]; omega
  · rename_i h
    simp only [true_iff]
    by_cases e : d = .d3
    · right; by_contra hc; exact h ⟨e, by omega⟩
    · exact Or.inl e

end Laik
