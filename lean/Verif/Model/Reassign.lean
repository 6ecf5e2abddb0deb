import Verif.Model.Split
import Verif.Model.Group
/-!
# Model of the reassign partitioner (`src/partitioner.c` 700-820)
-/

namespace Laik

/-- Weight arithmetic of the reassign partitioner, without any laws: `add`,
`sub`, `ge` on `double`, `zero` (751), `perTask` the value `weightPerTask`
(725-750), `idxW` the index weights (781-786). -/
structure ReArith (W : Type) where
  add : W → W → W
  sub : W → W → W
  ge : W → W → Bool
  zero : W
  perTask : W
  idxW : Int → W

/-- A 1d range. -/
def seg (a b : Int) : Box := ⟨⟨a, 0, 0⟩, ⟨b, 0, 0⟩⟩

/-- Redistribution of one range, src/partitioner.c 779-818: `n` indices left
starting with `i`, `frm` is `range.from`, weight `w`, `cur` is `curTask`.
`none`: access outside of `toParent`. -/
def reLoop {W : Type} (A : ReArith W) (size : Nat) (toP : Nat → Option Nat) :
    Nat → Int → Int → W → Nat → Option (W × Nat × List Call)
  | 0, i, frm, w, cur =>
    if frm < i then
      match toP cur with
      | none => none
      | some t => some (w, cur, [⟨t, seg frm i, 0⟩])
    else some (w, cur, [])
  | n + 1, i, frm, w, cur =>
    if A.ge (A.add w (A.idxW i)) A.perTask && decide (cur < size) then
      match toP cur with
      | none => none
      | some t =>
        match reLoop A size toP n (i + 1) (i + 1) (A.sub (A.add w (A.idxW i)) A.perTask)
            (if cur + 1 = size then cur else cur + 1) with
        | none => none
        | some (w, c, l) => some (w, c, ⟨t, seg frm (i + 1), 0⟩ :: l)
    else reLoop A size toP n (i + 1) frm (A.add w (A.idxW i)) cur

/-- Loop over all ranges of the old partitioning, src/partitioner.c 759-819. -/
def reGo {W : Type} (A : ReArith W) (newg : Group) : W → Nat → List TR → Option (List Call)
  | _, _, [] => some []
  | w, cur, r :: rs =>
    match newg.fromParent[r.task]? with
    | none => none
    | some (some _) => (reGo A newg w cur rs).map (⟨r.task, r.box, 0⟩ :: ·)
    | some none =>
      match reLoop A newg.loc.length (fun c => (newg.toParent[c]?).join)
          (r.box.hi.x - r.box.lo.x).toNat r.box.lo.x r.box.lo.x w cur with
      | none => none
      | some (w, cur, l) => (reGo A newg w cur rs).map (l ++ ·)

/-- `runReassignPartitioner`, src/partitioner.c 712-820, for the ranges `old`
of a partitioning of group `oldg`; `none`: failed asserts 721, 723 or access
outside of the translation tables. -/
def reassignCalls {W : Type} (A : ReArith W) (d : Dims) (oldg newg : Group) (old : List TR) : Option (List Call) :=
  if newg.parent = some oldg.gid ∧ d = .d1 then reGo A newg A.zero 0 old else none

theorem mem_seg (a b : Int) (p : Idx) : Mem .d1 (seg a b) p ↔ a ≤ p.x ∧ p.x < b := by
  rw [mem_d1]; rfl

theorem reLoop_spec {W : Type} (A : ReArith W) (size : Nat) (toP : Nat → Option Nat) (Good : Nat → Prop)
    (hg : ∀ c, c < size → ∃ t, toP c = some t ∧ Good t) (n : Nat) (i frm : Int) (w : W) (cur : Nat)
    (hf : frm ≤ i) (hc : cur < size) :
    ∃ w' cur' l, reLoop A size toP n i frm w cur = some (w', cur', l) ∧ cur' < size ∧
      ExactCover .d1 (seg frm (i + n)) l ∧
      ∀ c ∈ l, Good c.task ∧ c.tag = 0 ∧ frm ≤ c.box.lo.x ∧ c.box.lo.x < c.box.hi.x ∧ c.box.hi.x ≤ i + n := by
  induction n generalizing i frm w cur with
  | zero =>
    rw [reLoop]
    obtain ⟨t, ht, hgt⟩ := hg cur hc
    by_cases h : frm < i
    · rw [if_pos h, ht]
      refine ⟨w, cur, _, rfl, hc, ?_, ?_⟩
      · simpa using ExactCover.single .d1 (seg frm i) t 0
      · intro c hc'
        rw [List.mem_singleton] at hc'; subst hc'
        refine ⟨hgt, rfl, ?_⟩
        simp only [seg]; omega
    · rw [if_neg h]
      refine ⟨w, cur, _, rfl, hc, ⟨fun p => ?_, by simp⟩, by simp⟩
      rw [mem_seg]; simp; omega
  | succ n ih =>
    rw [reLoop]
    by_cases h : (A.ge (A.add w (A.idxW i)) A.perTask && decide (cur < size)) = true
    · rw [if_pos h]
      obtain ⟨t, ht, hgt⟩ := hg cur hc
      rw [ht]
      obtain ⟨w', cur', l, e, h1, h2, h3⟩ := ih (i+1) (i+1) (A.sub (A.add w (A.idxW i)) A.perTask)
        (if cur + 1 = size then cur else cur + 1) (by omega) (by split <;> omega)
      simp only
      rw [e]
      refine ⟨w', cur', _, rfl, h1, ?_, ?_⟩
      · have := ExactCover.append (s := seg frm (i + (n+1 : Nat))) (s1 := seg frm (i+1)) (s2 := seg (i+1) (i+1+n))
          (fun p => by rw [mem_seg, mem_seg, mem_seg]; omega)
          (fun p => by rw [mem_seg, mem_seg]; omega) (ExactCover.single .d1 (seg frm (i+1)) t 0) h2
        exact this
      · intro c hc'
        rcases List.mem_cons.1 hc' with rfl | hc'
        · refine ⟨hgt, rfl, ?_⟩
          simp only [seg]; omega
        · obtain ⟨g1, g2, g3, g4, g5⟩ := h3 c hc'
          refine ⟨g1, g2, ?_⟩; omega
    · rw [if_neg h]
      obtain ⟨w', cur', l, e, h1, h2, h3⟩ := ih (i+1) frm (A.add w (A.idxW i)) cur (by omega) hc
      have e2 : i + 1 + (n : Int) = i + (n+1 : Nat) := by omega
      rw [e2] at h2 h3
      exact ⟨w', cur', l, e, h1, h2, h3⟩

end Laik
