import Verif.Model.Split
/-!
# Model of the block partitioner (`src/partitioner.c` 509-622)

Weights are values of an arbitrary type with arbitrary operations: nothing is
assumed about them, so any rounding, negative weights or NaNs are included.
-/

namespace Laik

/-- Weight arithmetic used by the block partitioner: `add`, `sub` and the
comparison `ge` of `double`; `init` is `-0.5` (src/partitioner.c 575),
`thr task` the value of `perPart * taskW` for a task (574, 580-585, 607-612),
`idxW i` the weight of index number `i` (589-594). -/
structure BlockArith (W : Type) where
  add : W → W → W
  sub : W → W → W
  ge : W → W → Bool
  init : W
  thr : Nat → W
  idxW : Nat → W

/-- Local variables of `runBlockPartitioner`: `w`, `task`, `cycle` (575-577),
`range.from.i[pdim]` relative to the start of the space, and the appended ranges
`(task, from, to)`. -/
structure BlkSt (W : Type) where
  w : W
  task : Nat
  cycle : Nat
  frm : Nat
  out : List (Nat × Nat × Nat)

/-- Condition `(task+1 == count) && (cycle+1 == cycles)` (598, 617, 619). -/
def BlkSt.last {W : Type} (count cycles : Nat) (s : BlkSt W) : Bool :=
  (s.task + 1 == count) && (s.cycle + 1 == cycles)

/-- One pass through lines 599-615: append the range, go to next task. -/
def BlkSt.next {W : Type} (count i : Nat) (s : BlkSt W) (w : W) : BlkSt W :=
  { w := w
    task := if s.task + 1 = count then 0 else s.task + 1
    cycle := if s.task + 1 = count then s.cycle + 1 else s.cycle
    frm := i
    out := if s.frm < i then s.out ++ [(s.task, s.frm, i)] else s.out }

/-- The `while` loop, src/partitioner.c 596-616.  `none`: more than `fuel`
iterations. -/
def blkWhile {W : Type} (A : BlockArith W) (count cycles i : Nat) : Nat → BlkSt W → Option (BlkSt W)
  | 0, _ => none
  | fuel + 1, s =>
    if A.ge s.w (A.thr s.task) then
      let w := A.sub s.w (A.thr s.task)
      if s.last count cycles then some { s with w := w }
      else blkWhile A count cycles i fuel (s.next count i w)
    else some s

/-- The `for` loop, src/partitioner.c 588-618, from index `i` with `n` indices
left. -/
def blkFor {W : Type} (A : BlockArith W) (count cycles fuel : Nat) : Nat → Nat → BlkSt W → Option (BlkSt W)
  | _, 0, s => some s
  | i, n + 1, s =>
    match blkWhile A count cycles i fuel { s with w := A.add s.w (A.idxW i) } with
    | none => none
    | some s => if s.last count cycles then some s else blkFor A count cycles fuel (i + 1) n s

/-- Range for indices `[a;b[` (relative) of dimension `pdim`. -/
def blkBox (sp : Box) (pdim a b : Nat) : Box :=
  { lo := sp.lo.set pdim (sp.lo.get pdim + a), hi := sp.hi.set pdim (sp.lo.get pdim + b) }

/-- Result of the loops for a dimension of `size` indices, with asserts 543 and 619. -/
def blkParts {W : Type} (A : BlockArith W) (size count cycles fuel : Nat) : Option (List (Nat × Nat × Nat)) :=
  if size = 0 then none
  else match blkFor A count cycles fuel 0 size ⟨A.init, 0, 0, 0, []⟩ with
    | none => none
    | some s => if s.last count cycles then some (s.out ++ [(s.task, s.frm, size)]) else none

/-- `runBlockPartitioner`, src/partitioner.c 532-622.  The number of iterations
of the `while` loop is bounded by `count * cycles` when the loop can end at all
(`blkWhile_fuel`); with `cycles ≤ 0` the code does not finish normally (it
aborts in line 619 if the loops end), as modelled (`C12_no_cycles`). -/
def blockCalls {W : Type} (A : BlockArith W) (sp : Box) (pdim count cycles : Nat) : Option (List Call) :=
  (blkParts A (sp.width pdim) count cycles (count * cycles + 1)).map
    (fun l => l.map (fun e => ⟨e.1, blkBox sp pdim e.2.1 e.2.2, 0⟩))

/-- Number of the part currently filled. -/
def BlkSt.part {W : Type} (count : Nat) (s : BlkSt W) : Nat := s.cycle * count + s.task

/-- Consecutive non-empty intervals from `a` to `b`. -/
def Consec : Nat → List (Nat × Nat × Nat) → Nat → Prop
  | a, [], b => a = b
  | a, e :: l, b => e.2.1 = a ∧ e.2.1 < e.2.2 ∧ Consec e.2.2 l b

theorem Consec.snoc {a b c t : Nat} {l : List (Nat × Nat × Nat)} (h : Consec a l b) (hbc : b < c) :
    Consec a (l ++ [(t, b, c)]) c := by
  induction l generalizing a with
  | nil => simp only [Consec] at h; subst h; exact ⟨rfl, hbc, rfl⟩
  | cons e l ih => exact ⟨h.1, h.2.1, ih h.2.2⟩

theorem Consec.le {a b : Nat} {l : List (Nat × Nat × Nat)} (h : Consec a l b) :
    a ≤ b ∧ ∀ e ∈ l, a ≤ e.2.1 ∧ e.2.2 ≤ b := by
  induction l generalizing a with
  | nil => simp only [Consec] at h; simp; omega
  | cons e l ih =>
    obtain ⟨h1, h2, h3⟩ := h
    obtain ⟨h4, h5⟩ := ih h3
    refine ⟨by omega, ?_⟩
    intro x hx
    rcases List.mem_cons.1 hx with rfl | hx
    · omega
    · have := h5 x hx; omega

theorem Consec.cover {a b : Nat} {l : List (Nat × Nat × Nat)} (h : Consec a l b) (v : Nat) :
    (a ≤ v ∧ v < b) ↔ ∃ e ∈ l, e.2.1 ≤ v ∧ v < e.2.2 := by
  induction l generalizing a with
  | nil => simp only [Consec] at h; simp; omega
  | cons e l ih =>
    obtain ⟨h1, h2, h3⟩ := h
    have hle := h3.le.1
    constructor
    · intro hv
      by_cases hlt : v < e.2.2
      · exact ⟨e, List.mem_cons_self, by omega, hlt⟩
      · obtain ⟨x, hx, hx'⟩ := (ih h3).1 ⟨by omega, hv.2⟩
        exact ⟨x, List.mem_cons_of_mem _ hx, hx'⟩
    · rintro ⟨x, hx, hx'⟩
      rcases List.mem_cons.1 hx with rfl | hx
      · omega
      · have := (ih h3).2 ⟨x, hx, hx'⟩; omega

theorem Consec.pairwise {a b : Nat} {l : List (Nat × Nat × Nat)} (h : Consec a l b) :
    l.Pairwise (fun x y => x.2.2 ≤ y.2.1) := by
  induction l generalizing a with
  | nil => simp
  | cons e l ih =>
    obtain ⟨_, _, h3⟩ := h
    rw [List.pairwise_cons]
    exact ⟨fun y hy => (h3.le.2 y hy).1, ih h3⟩

/-- Loop invariant; `ks` are the numbers of the parts of the appended ranges. -/
structure BlkInv {W : Type} (count cycles : Nat) (i : Nat) (s : BlkSt W) (ks : List Nat) : Prop where
  htask : s.task < count
  hcycle : s.cycle < cycles
  hfrm : s.frm ≤ i
  consec : Consec 0 s.out s.frm
  kslt : ∀ k ∈ ks, k < s.part count
  kspw : ks.Pairwise (· < ·)
  tasks : s.out.map (·.1) = ks.map (· % count)

theorem BlkInv.next {W : Type} {count cycles i : Nat} {s : BlkSt W} {ks : List Nat}
    (h : BlkInv count cycles i s ks) (hl : s.last count cycles = false) (w : W) :
    ∃ ks, BlkInv count cycles i (s.next count i w) ks := by
  have hpart : (s.next count i w).part count = s.part count + 1 := by
    unfold BlkSt.part BlkSt.next
    simp only
    split
    · rw [Nat.add_mul]; omega
    · omega
  have htask : (s.next count i w).task < count := by
    have := h.htask
    unfold BlkSt.next; simp only; split <;> omega
  have hcyc : (s.next count i w).cycle < cycles := by
    have := h.hcycle
    unfold BlkSt.next; simp only
    simp [BlkSt.last] at hl
    split
    · rename_i e; have := hl e; omega
    · exact this
  by_cases hf : s.frm < i
  · refine ⟨ks ++ [s.part count], htask, hcyc, Nat.le_refl _, ?_, ?_, ?_, ?_⟩
    · unfold BlkSt.next; simp only; rw [if_pos hf]; exact h.consec.snoc hf
    · intro k hk
      rw [hpart]
      rcases List.mem_append.1 hk with hk | hk
      · have := h.kslt k hk; omega
      · rw [List.mem_singleton] at hk; omega
    · rw [List.pairwise_append]
      refine ⟨h.kspw, by simp, ?_⟩
      intro a ha b hb
      rw [List.mem_singleton] at hb
      have := h.kslt a ha; omega
    · unfold BlkSt.next; simp only; rw [if_pos hf]
      rw [List.map_append, List.map_append, h.tasks]
      congr 1
      simp [BlkSt.part, Nat.mod_eq_of_lt h.htask]
  · have e : s.frm = i := by have := h.hfrm; omega
    refine ⟨ks, htask, hcyc, Nat.le_refl _, ?_, ?_, h.kspw, ?_⟩
    · unfold BlkSt.next; simp only; rw [if_neg hf, ← e]; exact h.consec
    · intro k hk; rw [hpart]; have := h.kslt k hk; omega
    · unfold BlkSt.next; simp only; rw [if_neg hf]; exact h.tasks

theorem BlkInv.setw {W : Type} {count cycles i : Nat} {s : BlkSt W} {ks : List Nat}
    (h : BlkInv count cycles i s ks) (w : W) : BlkInv count cycles i { s with w := w } ks :=
  ⟨h.htask, h.hcycle, h.hfrm, h.consec, h.kslt, h.kspw, h.tasks⟩

theorem blkWhile_inv {W : Type} (A : BlockArith W) (count cycles i fuel : Nat) (s s' : BlkSt W)
    (ks : List Nat) (h : BlkInv count cycles i s ks)
    (hs : blkWhile A count cycles i fuel s = some s') : ∃ ks, BlkInv count cycles i s' ks := by
  induction fuel generalizing s ks with
  | zero => cases hs
  | succ f ih =>
    rw [blkWhile] at hs
    split at hs
    · simp only at hs
      split at hs
      · cases hs; exact ⟨ks, h.setw _⟩
      · rename_i hl
        obtain ⟨ks', h'⟩ := h.next (by simpa using hl) (A.sub s.w (A.thr s.task))
        exact ih _ ks' h' hs
    · cases hs; exact ⟨ks, h⟩

theorem blkFor_inv {W : Type} (A : BlockArith W) (count cycles fuel i n : Nat) (s s' : BlkSt W)
    (ks : List Nat) (h : BlkInv count cycles i s ks) (hn : 0 < n)
    (hs : blkFor A count cycles fuel i n s = some s') (hl : s'.last count cycles = true) :
    ∃ ks j, j < i + n ∧ BlkInv count cycles j s' ks := by
  induction n generalizing i s ks with
  | zero => omega
  | succ n ih =>
    rw [blkFor] at hs
    split at hs
    · cases hs
    · rename_i s1 h1
      obtain ⟨ks1, hi1⟩ := blkWhile_inv A count cycles i fuel _ s1 ks (h.setw _) h1
      split at hs
      · cases hs; exact ⟨ks1, i, by omega, hi1⟩
      · rename_i hnl
        cases n with
        | zero =>
          rw [blkFor] at hs; cases hs
          exact absurd hl (by simpa using hnl)
        | succ n =>
          obtain ⟨ks2, j, hj, h2⟩ := ih (i + 1) s1 ks1
            ⟨hi1.htask, hi1.hcycle, by have := hi1.hfrm; omega, hi1.consec, hi1.kslt, hi1.kspw, hi1.tasks⟩
            (by omega) hs
          exact ⟨ks2, j, by omega, h2⟩

/-- Fuel never runs out when there is at least one cycle. -/
theorem blkWhile_fuel {W : Type} (A : BlockArith W) (count cycles i fuel : Nat) (s : BlkSt W)
    (ht : s.task < count) (hc : s.cycle < cycles) (hf : count * cycles < s.part count + fuel + 1) :
    ∃ s', blkWhile A count cycles i fuel s = some s' ∧ s'.task < count ∧ s'.cycle < cycles ∧
      s.part count ≤ s'.part count := by
  have hb : ∀ (s : BlkSt W), s.task < count → s.cycle < cycles → s.part count < count * cycles := by
    intro s ht hc
    unfold BlkSt.part
    have : (s.cycle + 1) * count ≤ cycles * count := Nat.mul_le_mul_right _ (by omega)
    rw [Nat.mul_comm count cycles]
    rw [Nat.add_mul] at this; omega
  induction fuel generalizing s with
  | zero => have := hb s ht hc; omega
  | succ f ih =>
    rw [blkWhile]
    split
    · simp only
      split
      · exact ⟨_, rfl, ht, hc, Nat.le_refl _⟩
      · rename_i hl
        have hpart : (s.next count i (A.sub s.w (A.thr s.task))).part count = s.part count + 1 := by
          unfold BlkSt.part BlkSt.next
          simp only
          split
          · rw [Nat.add_mul]; omega
          · omega
        obtain ⟨s', e, h1, h2, h3⟩ := ih (s.next count i (A.sub s.w (A.thr s.task)))
          (by unfold BlkSt.next; simp only; split <;> omega)
          (by
            unfold BlkSt.next; simp only
            simp [BlkSt.last] at hl
            split
            · rename_i e; have := hl e; omega
            · exact hc)
          (by rw [hpart]; omega)
        exact ⟨s', e, h1, h2, by omega⟩
    · exact ⟨s, rfl, ht, hc, Nat.le_refl _⟩

theorem blkParts_spec {W : Type} (A : BlockArith W) (size count cycles fuel : Nat)
    (hc : 0 < count) (hy : 0 < cycles) (l : List (Nat × Nat × Nat))
    (h : blkParts A size count cycles fuel = some l) :
    Consec 0 l size ∧ ∃ ks : List Nat, ks.Pairwise (· < ·) ∧ (∀ k ∈ ks, k < count * cycles) ∧
      l.map (·.1) = ks.map (· % count) ∧ ks.getLast? = some (count * cycles - 1) := by
  unfold blkParts at h
  split at h
  · cases h
  · rename_i hs0
    split at h
    · cases h
    · rename_i s' h1
      split at h
      · rename_i hl
        cases h
        obtain ⟨ks, j, hj, hi⟩ := blkFor_inv A count cycles fuel 0 size ⟨A.init, 0, 0, 0, []⟩ s' []
          ⟨hc, hy, Nat.le_refl _, rfl, by simp, by simp, rfl⟩ (by omega) h1 hl
        have hf := hi.hfrm
        have hlast : s'.part count + 1 = count * cycles := by
          simp [BlkSt.last] at hl
          unfold BlkSt.part
          rw [← hl.2, Nat.mul_add, Nat.mul_comm]; omega
        refine ⟨hi.consec.snoc (by omega), ks ++ [s'.part count], ?_, ?_, ?_, ?_⟩
        · rw [List.pairwise_append]
          refine ⟨hi.kspw, by simp, ?_⟩
          intro a ha b hb
          rw [List.mem_singleton] at hb
          have := hi.kslt a ha; omega
        · intro k hk
          rcases List.mem_append.1 hk with hk | hk
          · have := hi.kslt k hk; omega
          · rw [List.mem_singleton] at hk; omega
        · rw [List.map_append, List.map_append, hi.tasks]
          congr 1
          simp [BlkSt.part, Nat.mod_eq_of_lt hi.htask]
        · simp; omega
      · cases h

theorem mem_blkBox {d : Dims} {sp : Box} (hv : sp.Valid d) {pdim : Nat} (hk : pdim < d.toNat) {a b : Nat}
    (hb : b ≤ sp.width pdim) (p : Idx) :
    Mem d (blkBox sp pdim a b) p ↔ Mem d sp p ∧ sp.lo.get pdim + a ≤ p.get pdim ∧ p.get pdim < sp.lo.get pdim + b := by
  have hw := width_eq hv hk
  have h3 := d.toNat_le
  constructor
  · intro h
    have hp := h pdim hk
    simp only [blkBox] at hp
    rw [Idx.get_set _ _ _ _ (by omega) (by omega), Idx.get_set _ _ _ _ (by omega) (by omega),
      if_pos rfl, if_pos rfl] at hp
    refine ⟨fun j hj => ?_, hp⟩
    have := h j hj
    simp only [blkBox] at this
    rw [Idx.get_set _ _ _ _ (by omega) (by omega), Idx.get_set _ _ _ _ (by omega) (by omega)] at this
    split at this
    · subst j; omega
    · exact this
  · rintro ⟨h, h1, h2⟩ j hj
    have := h j hj
    simp only [blkBox]
    rw [Idx.get_set _ _ _ _ (by omega) (by omega), Idx.get_set _ _ _ _ (by omega) (by omega)]
    split
    · subst j; exact ⟨h1, h2⟩
    · exact this

/-! ### Exact arithmetic without weights -/

/-- Exact arithmetic for `size` indices of weight 1, all values multiplied by
`2 * count * cycles`: `-0.5`, `1` and `size / count / cycles` become
`-count*cycles`, `2*count*cycles` and `2*size`. -/
def exactArith (size count cycles : Nat) : BlockArith Int where
  add := (· + ·)
  sub := (· - ·)
  ge := fun a b => decide (b ≤ a)
  init := -((count * cycles : Nat) : Int)
  thr := fun _ => 2 * size
  idxW := fun _ => 2 * ((count * cycles : Nat) : Int)

theorem blkWhile_exact (size count cycles i fuel : Nat) (s s' : BlkSt Int)
    (h : blkWhile (exactArith size count cycles) count cycles i fuel s = some s') :
    (s'.last count cycles = false → s'.w < 2 * size ∧
      s'.w + 2 * size * (s'.part count : Int) = s.w + 2 * size * (s.part count : Int)) ∧
    (s'.part count ≠ s.part count → 2 * size * (s'.part count : Int) ≤ s.w + 2 * size * (s.part count : Int)) := by
  induction fuel generalizing s with
  | zero => cases h
  | succ f ih =>
    rw [blkWhile] at h
    split at h
    · rename_i hge
      simp only at h
      have hge' : 2 * (size : Int) ≤ s.w := by simpa [exactArith] using hge
      split at h
      · rename_i hl
        cases h
        refine ⟨fun hh => ?_, fun hh => absurd rfl hh⟩
        have : s.last count cycles = false := hh
        rw [this] at hl; cases hl
      · have hpart : ∀ w, (s.next count i w).part count = s.part count + 1 := by
          intro w
          unfold BlkSt.part BlkSt.next
          simp only
          split
          · rw [Nat.add_mul]; omega
          · omega
        obtain ⟨h1, h2⟩ := ih _ h
        rw [hpart] at h1 h2
        have e : (s.next count i ((exactArith size count cycles).sub s.w
            ((exactArith size count cycles).thr s.task))).w = s.w - 2 * size := rfl
        rw [e] at h1 h2
        have e2 : (2 * size * ((s.part count + 1 : Nat) : Int)) = 2 * size * (s.part count : Int) + 2 * size := by
          rw [Int.natCast_add, Int.mul_add]; simp
        rw [e2] at h1 h2
        refine ⟨fun hh => ?_, fun hh => ?_⟩
        · obtain ⟨g1, g2⟩ := h1 hh
          exact ⟨g1, by omega⟩
        · by_cases hp : s'.part count = s.part count + 1
          · rw [hp, e2]; omega
          · have := h2 hp; omega
    · rename_i hge
      have hge' : ¬ (2 * (size : Int) ≤ s.w) := by simpa [exactArith] using hge
      cases h
      exact ⟨fun _ => ⟨by omega, rfl⟩, fun hh => absurd rfl hh⟩

theorem part_lt {W : Type} {count cycles : Nat} (s : BlkSt W) (ht : s.task < count) (hc : s.cycle < cycles) :
    s.part count < count * cycles := by
  unfold BlkSt.part
  have : (s.cycle + 1) * count ≤ cycles * count := Nat.mul_le_mul_right _ (by omega)
  rw [Nat.mul_comm count cycles]
  rw [Nat.add_mul] at this; omega

theorem last_iff_part {W : Type} {count cycles : Nat} (s : BlkSt W) (ht : s.task < count) (hc : s.cycle < cycles) :
    s.last count cycles = true ↔ s.part count + 1 = count * cycles := by
  simp only [BlkSt.last, Bool.and_eq_true, beq_iff_eq]
  unfold BlkSt.part
  constructor
  · rintro ⟨h1, h2⟩
    rw [← h2, Nat.mul_add, Nat.mul_comm]; omega
  · intro h
    have h1 : s.cycle + 1 = cycles := by
      by_contra hne
      have : (s.cycle + 2) * count ≤ cycles * count := Nat.mul_le_mul_right _ (by omega)
      rw [Nat.mul_comm count cycles] at h
      rw [Nat.add_mul] at this; omega
    refine ⟨?_, h1⟩
    rw [← h1, Nat.mul_add, Nat.mul_comm count] at h; omega

theorem blkFor_exact (size count cycles i n : Nat) (hi : i + n = size) (s : BlkSt Int)
    (ht : s.task < count) (hc : s.cycle < cycles)
    (hw : s.w + 2 * size * (s.part count : Int) = -((count * cycles : Nat) : Int) + 2 * ((count * cycles : Nat) : Int) * i) :
    ∃ s', blkFor (exactArith size count cycles) count cycles (count * cycles + 1) i n s = some s' ∧
      s'.task < count ∧ s'.cycle < cycles ∧
      (s'.last count cycles = false → 0 < n → s'.w < 2 * size ∧
        s'.w + 2 * size * (s'.part count : Int) =
          -((count * cycles : Nat) : Int) + 2 * ((count * cycles : Nat) : Int) * size) ∧
      (s'.part count ≠ s.part count → 2 * size * (s'.part count : Int) ≤
          -((count * cycles : Nat) : Int) + 2 * ((count * cycles : Nat) : Int) * size) := by
  induction n generalizing i s with
  | zero =>
    refine ⟨s, by rw [blkFor], ht, hc, fun _ h => by omega, fun h => absurd rfl h⟩
  | succ n ih =>
    rw [blkFor]
    obtain ⟨s1, e1, t1, c1, p1⟩ := blkWhile_fuel (exactArith size count cycles) count cycles i (count * cycles + 1)
      { s with w := (exactArith size count cycles).add s.w ((exactArith size count cycles).idxW i) } ht hc (by omega)
    rw [e1]
    obtain ⟨x1, x2⟩ := blkWhile_exact size count cycles i _ _ s1 e1
    have ew : (exactArith size count cycles).add s.w ((exactArith size count cycles).idxW i) =
      s.w + 2 * ((count * cycles : Nat) : Int) := rfl
    have ep : ∀ w : Int, BlkSt.part count { s with w := w } = s.part count := fun w => by rfl
    simp only [ew, ep] at x1 x2 p1
    have em : 2 * ((count * cycles : Nat) : Int) * ((i + 1 : Nat) : Int) =
        2 * ((count * cycles : Nat) : Int) * (i : Int) + 2 * ((count * cycles : Nat) : Int) := by
      rw [Int.natCast_add, Int.mul_add]; simp
    have hmono : 2 * ((count * cycles : Nat) : Int) * ((i + 1 : Nat) : Int) ≤
        2 * ((count * cycles : Nat) : Int) * (size : Int) := by
      apply Int.mul_le_mul_of_nonneg_left <;> omega
    simp only
    split
    · rename_i hl
      refine ⟨s1, rfl, t1, c1, fun h => (by rw [h] at hl; cases hl), fun h => ?_⟩
      have := x2 h
      omega
    · rename_i hl
      have hl' : s1.last count cycles = false := by simpa using hl
      obtain ⟨g1, g2⟩ := x1 hl'
      obtain ⟨s2, e2, t2, c2, y1, y2⟩ := ih (i + 1) (by omega) s1 t1 c1 (by omega)
      refine ⟨s2, e2, t2, c2, fun h _ => ?_, fun h => ?_⟩
      · cases n with
        | zero =>
          rw [blkFor] at e2; cases e2
          have : i + 1 = size := by omega
          rw [this] at em
          exact ⟨g1, by omega⟩
        | succ n => exact y1 h (by omega)
      · by_cases hp : s2.part count = s1.part count
        · rw [hp] at h ⊢
          have := x2 h; omega
        · exact y2 hp

theorem blkParts_exact (size count cycles : Nat) (hs : 0 < size) (hc : 0 < count) (hy : 0 < cycles) :
    (blkParts (exactArith size count cycles) size count cycles (count * cycles + 1)).isSome = true ↔
      count * cycles ≤ 2 * size := by
  unfold blkParts
  rw [if_neg (by omega)]
  obtain ⟨s', e, t, c, h1, h2⟩ := blkFor_exact size count cycles 0 size (by omega)
    ⟨(exactArith size count cycles).init, 0, 0, 0, []⟩ hc hy (by simp [BlkSt.part, exactArith])
  rw [e]
  have hli := last_iff_part s' t c
  have hlt := part_lt s' t c
  have hp0 : BlkSt.part count (⟨(exactArith size count cycles).init, 0, 0, 0, []⟩ : BlkSt Int) = 0 := by
    simp [BlkSt.part]
  rw [hp0] at h2
  have hnm : 2 * ((count * cycles : Nat) : Int) * size = 2 * size * ((count * cycles : Nat) : Int) := by
    rw [Int.mul_assoc, Int.mul_assoc, Int.mul_comm (size:Int)]
  have hpos : 0 < count * cycles := Nat.mul_pos hc hy
  simp only
  by_cases hl : s'.last count cycles = true
  · rw [if_pos hl]
    simp only [Option.isSome_some, true_iff]
    have hp := hli.1 hl
    by_cases h0 : s'.part count = 0
    · omega
    · have g := h2 h0
      have e2 : 2 * (size:Int) * ((count * cycles : Nat) : Int) = 2 * size * (s'.part count : Int) + 2 * size := by
        rw [← hp, Int.natCast_add, Int.mul_add]; simp
      omega
  · rw [if_neg hl]
    simp only [Option.isSome_none, Bool.false_eq_true, false_iff]
    have hl' : s'.last count cycles = false := by simpa using hl
    obtain ⟨g1, g2⟩ := h1 hl' hs
    have hpp : s'.part count + 2 ≤ count * cycles := by
      have : s'.part count + 1 ≠ count * cycles := fun e => hl (hli.2 e)
      omega
    have e2 : 2 * (size:Int) * ((s'.part count + 2 : Nat) : Int) ≤ 2 * size * ((count * cycles : Nat) : Int) := by
      apply Int.mul_le_mul_of_nonneg_left <;> omega
    have e3 : 2 * (size:Int) * ((s'.part count + 2 : Nat) : Int) = 2 * size * (s'.part count : Int) + 4 * size := by
      rw [Int.natCast_add, Int.mul_add]; simp; omega
    omega

end Laik
