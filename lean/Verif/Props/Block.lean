import Verif.Model.Block
/-!
# C11 and C12: block partitioner
-/

namespace Laik

/-- C11: whenever the block partitioner finishes — for any weight functions and
any arithmetic at all — every index of the space is in exactly one range,
nothing outside is assigned, and the ranges are given in the order of their
position to the parts `0, 1, …, count*cycles-1` (parts may be left out, the last
one is not), part `k` belonging to process `k mod count`; so every process
number is in the group. -/
theorem C11_block_tiles {W : Type} (A : BlockArith W) (d : Dims) (sp : Box) (pdim count cycles : Nat)
    (hv : sp.Valid d) (hd : pdim < d.toNat) (hc : 0 < count) (hy : 0 < cycles)
    (cs : List Call) (h : blockCalls A sp pdim count cycles = some cs) :
    (∀ p, Mem d sp p → ∃! c, c ∈ cs ∧ Mem d c.box p) ∧
    (∀ c ∈ cs, ∀ p, Mem d c.box p → Mem d sp p) ∧
    cs.Pairwise (fun a b => ∀ p q, Mem d a.box p → Mem d b.box q → p.get pdim < q.get pdim) ∧
    ∃ ks : List Nat, ks.Pairwise (· < ·) ∧ (∀ k ∈ ks, k < count * cycles) ∧
      ks.getLast? = some (count * cycles - 1) ∧ cs.map (·.task) = ks.map (· % count) := by
  unfold blockCalls at h
  rw [Option.map_eq_some_iff] at h
  obtain ⟨l, hl, rfl⟩ := h
  obtain ⟨hcon, ks, k1, k2, k3, k4⟩ := blkParts_spec A _ count cycles _ hc hy l hl
  have hmem : ∀ e ∈ l, ∀ p, Mem d (blkBox sp pdim e.2.1 e.2.2) p ↔ Mem d sp p ∧
      sp.lo.get pdim + e.2.1 ≤ p.get pdim ∧ p.get pdim < sp.lo.get pdim + e.2.2 := by
    intro e he p
    exact mem_blkBox hv hd (hcon.le.2 e he).2 p
  have hpw : (l.map (fun e => (⟨e.1, blkBox sp pdim e.2.1 e.2.2, 0⟩ : Call))).Pairwise
      (fun a b => ∀ p q, Mem d a.box p → Mem d b.box q → p.get pdim < q.get pdim) := by
    rw [List.pairwise_map]
    refine List.Pairwise.imp_of_mem ?_ hcon.pairwise
    intro a b ha hb hab p q hp hq
    rw [hmem a ha] at hp
    rw [hmem b hb] at hq
    omega
  have hE : ExactCover d sp (l.map (fun e => (⟨e.1, blkBox sp pdim e.2.1 e.2.2, 0⟩ : Call))) := by
    constructor
    · intro p
      constructor
      · intro hp
        have hpd := hp pdim hd
        have hw := width_eq hv hd
        obtain ⟨e, he, h1, h2⟩ := (hcon.cover (p.get pdim - sp.lo.get pdim).toNat).1 (by omega)
        exact ⟨_, List.mem_map.2 ⟨e, he, rfl⟩, (hmem e he p).2 ⟨hp, by omega, by omega⟩⟩
      · rintro ⟨c, hc, hm⟩
        obtain ⟨e, he, rfl⟩ := List.mem_map.1 hc
        exact ((hmem e he p).1 hm).1
    · refine hpw.imp ?_
      rintro a b hab p ⟨h1, h2⟩
      have := hab p p h1 h2; omega
  refine ⟨fun p hm => hE.unique p hm, fun c h1 p h2 => (hE.cover p).2 ⟨c, h1, h2⟩, hpw, ks, k1, k2, k4, ?_⟩
  rw [← k3, List.map_map]
  rfl

/-- 10 indices, 3 processes, 2 cycles. -/
example : (blockCalls (exactArith 10 3 2) ⟨⟨5,0,0⟩,⟨15,0,0⟩⟩ 0 3 2).map
    (fun l => l.map (fun c => (c.task, c.box.lo.x, c.box.hi.x))) =
    some [(0,5,7),(1,7,8),(2,8,10),(0,10,12),(1,12,13),(2,13,15)] := by decide +kernel

/-- Non-numeric arithmetic ("NaN": comparisons false, except at one index). -/
example : (blockCalls (W := Bool) ⟨fun _ b => b, fun _ _ => false, fun a _ => a, false, fun _ => false,
      fun i => i == 3⟩ ⟨⟨0,0,0⟩,⟨6,2,0⟩⟩ 0 2 1).isSome = true := by decide +kernel

/-- C12 with exact arithmetic: without weights, the partitioner finishes if
and only if there is at most two parts (process/cycle pairs) per index. -/
theorem C12_block_finishes_iff (sp : Box) (pdim count cycles : Nat)
    (hs : sp.lo.get pdim < sp.hi.get pdim) (hc : 0 < count) (hy : 0 < cycles) :
    (blockCalls (exactArith (sp.width pdim) count cycles) sp pdim count cycles).isSome = true ↔
      ((count * cycles : Nat) : Int) ≤ 2 * (sp.hi.get pdim - sp.lo.get pdim) := by
  unfold blockCalls
  rw [Option.isSome_map]
  have hw : (sp.width pdim : Int) = sp.hi.get pdim - sp.lo.get pdim := by unfold Box.width; omega
  rw [blkParts_exact _ _ _ (by omega) hc hy]
  omega

/-- The `while` loop always ends (any arithmetic) when there is at least one
cycle, so the fuel in the model does not restrict: `none` from the model is
always the failed assert in line 543 or 619. -/
theorem C12_block_loop_ends {W : Type} (A : BlockArith W) (count cycles i fuel : Nat) (s : BlkSt W)
    (ht : s.task < count) (hc : s.cycle < cycles) (hf : count * cycles ≤ fuel) :
    (blkWhile A count cycles i fuel s).isSome = true := by
  obtain ⟨s', e, _⟩ := blkWhile_fuel A count cycles i fuel s ht hc (by omega)
  rw [e]; rfl

example : (blkWhile (exactArith 10 3 2) 3 2 4 6 ⟨100, 1, 0, 2, []⟩).isSome = true := by decide +kernel

/-- Code disagrees with C12: one index and 4 processes aborts (assert 619). -/
theorem C12_block_aborts : blockCalls (exactArith 1 4 1) ⟨⟨0,0,0⟩,⟨1,0,0⟩⟩ 0 4 1 = none := by decide +kernel

/-- Empty space aborts (assert 543). -/
theorem C12_block_empty_space {W : Type} (A : BlockArith W) (sp : Box) (pdim count cycles : Nat)
    (hs : sp.hi.get pdim ≤ sp.lo.get pdim) : blockCalls A sp pdim count cycles = none := by
  unfold blockCalls blkParts
  rw [if_pos (by unfold Box.width; omega)]; rfl

/-- `laik_set_cycle_count` accepts 0 (src/partitioner.c 694), but with 0 cycles
the partitioner never finishes normally, whatever the weights. -/
theorem C12_no_cycles {W : Type} (A : BlockArith W) (size count fuel : Nat) :
    blkParts A size count 0 fuel = none := by
  unfold blkParts
  split
  · rfl
  · split
    · rfl
    · rw [if_neg (by simp [BlkSt.last])]

end Laik
