import Verif.Model.Tcp2Switch
/-!
# Memory cells used by a switch over the TCP2 backend
-/

namespace Laik.DE

variable {A V : Type}

/-- The operation uses cells of index `i`. -/
def OpCells (M : Cells A) (F T : List TR) (p : Nat) (i : Int) : ROp → Prop
  | .loc _ _ a b => CellOf M F T p i (M.src a.2 i) ∧ CellOf M F T p i (M.dst b.2 i)
  | .send _ _ a _ => CellOf M F T p i (M.src a.2 i)
  | .recv _ _ b _ => CellOf M F T p i (M.dst b.2 i)
  | .red _ _ ins outs a b => (p ∈ ins → CellOf M F T p i (M.src (a.getD (-1, -1)).2 i)) ∧
      (p ∈ outs → CellOf M F T p i (M.dst (b.getD (-1, -1)).2 i))

/-- Mappings used by the operations of a transition. -/
theorem op_cells {n redOp : Nat} {F T : List TR} (h : TransOK n F T) {p : Nat} {F' T' : List TR} {st : TSt}
    (hc : Calculated n redOp F T p F' T' st) (M : Cells A) {o : ROp} (ho : o ∈ st.res n p) {i : Int}
    (hi : opLo o ≤ i ∧ i < opHi o) :
    OpCells M F T p i o := by
  obtain ⟨c1, c2⟩ := hc.segs h
  rw [c2] at ho
  obtain ⟨s, hs, ho⟩ := List.mem_flatMap.1 ho
  obtain ⟨l, el⟩ := c1 s hs
  rw [el, Option.getD_some] at ho
  obtain ⟨e1, e2⟩ := specSeg_lohi el o ho
  rw [e1, e2] at hi
  have oF : ownersAt F n i = ownersAt F n s.1 := owners_const_of (fun r hr => seg_has hs (Or.inl hr) hi)
  have oT : ownersAt T n i = ownersAt T n s.1 := owners_const_of (fun r hr => seg_has hs (Or.inr hr) hi)
  have nF : noAt F p i = noAt F p s.1 := noAt_const (fun r hr => seg_has hs (Or.inl hr) hi)
  have nT : noAt T p i = noAt T p s.1 := noAt_const (fun r hr => seg_has hs (Or.inr hr) hi)
  have cF : p ∈ ownersAt F n i → CellOf M F T p i (M.src (noAt F p i).2 i) := by
    intro hp
    obtain ⟨r, hr, rfl, hri⟩ := (mem_ownersAt h.goodF.task i p).1 hp
    exact Or.inl ⟨r, hr, rfl, hri, by rw [noAt_mapNo h.goodF hr hri]⟩
  have cT : p ∈ ownersAt T n i → CellOf M F T p i (M.dst (noAt T p i).2 i) := by
    intro hp
    obtain ⟨r, hr, rfl, hri⟩ := (mem_ownersAt h.goodT.task i p).1 hp
    exact Or.inr ⟨r, hr, rfl, hri, by rw [noAt_mapNo h.goodT hr hri]⟩
  have ocase := specSeg_cases el
  rw [← oF, ← oT, ← nF, ← nT] at ocase
  rcases ocase with ⟨_, _, rfl⟩ | ⟨c1, e⟩ | ⟨q, hq, c1, e⟩ | ⟨c1, e⟩
  · cases ho
  · have hpin : p ∈ ownersAt F n i := by rw [c1]; simp
    rw [e] at ho
    obtain ⟨t, ht, rfl⟩ := List.mem_map.1 ho
    by_cases c : t = p
    · subst c
      rw [if_pos rfl]
      exact ⟨cF hpin, cT ht⟩
    · rw [if_neg c]
      exact cF hpin
  · rw [e] at ho
    split at ho
    · rename_i hp
      rcases List.mem_singleton.1 ho with rfl
      exact cT hp
    · cases ho
  · rw [e] at ho
    rcases List.mem_singleton.1 ho with rfl
    refine ⟨?_, ?_⟩
    · intro hp
      rw [if_pos hp]
      exact cF hp
    · intro hp
      rw [if_pos hp]
      exact cT hp

theorem ghost_cells {n redOp : Nat} {F T : List TR} (h : TransOK n F T) {p : Nat} {F' T' : List TR} {st : TSt}
    (hc : Calculated n redOp F T p F' T' st) (M : Cells A) (val : Nat → Int → V) (res : List Nat → List Nat → Int → V)
    (skip : Int → Int → Bool) {O : List ROp} (hO : Sorted p (st.res n p) O) :
    ∀ g ∈ ghost M val res skip p (st.res n p) O, g.cells (CellOf M F T p) := by
  intro g hg i h1 h2
  rcases List.mem_append.1 hg with hg | hg
  · obtain ⟨o, ho, hg⟩ := List.mem_flatMap.1 hg
    have hop := (hO.mem.1 ho).1
    have hr := ghostOp_mem M val res p o hg (fun _ => True) (fun _ _ _ _ _ => trivial) (fun _ _ _ _ _ => trivial)
      (fun _ _ _ _ _ _ _ _ => trivial) (fun _ _ _ _ _ _ _ _ => trivial)
    rw [hr.1] at h1
    rw [hr.2.1] at h2
    have hcell := op_cells h hc M hop ⟨h1, h2⟩
    have := (ghostOp_mem M val res p o hg (fun f => CellOf M F T p i (f i))
      (by rintro x y a t rfl; exact hcell) (by rintro x y b s rfl; exact hcell)
      (by rintro x y ins outs a b rfl; exact hcell.1) (by rintro x y ins outs a b rfl; exact hcell.2)).2.2
    generalize g.1 = d at *
    cases d <;> exact this
  · unfold ghostCopies copyOps at hg
    obtain ⟨d, hd, rfl⟩ := List.mem_map.1 hg
    obtain ⟨o, ho, e⟩ := List.mem_filterMap.1 hd
    cases o with
    | send => cases e
    | recv => cases e
    | red => cases e
    | loc x y a b =>
      simp only [] at e
      split at e
      · cases e
      · cases e
        exact op_cells h hc M ho ⟨h1, h2⟩

/-- Number of actions left of processes `0..n-1`. -/
def left (n : Nat) (st : DState A V) : Nat := ((List.range n).map (fun p => (st.rem p).length)).sum

theorem sum_setP {β : Type} (n : Nat) (f : Nat → List β) (p : Nat) (t : List β) (a : β) (h : f p = a :: t) (hp : p < n) :
    ((List.range n).map (fun q => (setP f p t q).length)).sum + 1 = ((List.range n).map (fun q => (f q).length)).sum := by
  induction n with
  | zero => omega
  | succ n ih =>
    rw [List.range_succ, List.map_append, List.map_append, List.sum_append, List.sum_append]
    simp only [List.map_cons, List.map_nil, List.sum_cons, List.sum_nil]
    by_cases c : p = n
    · subst c
      have : ∀ q ∈ List.range p, (setP f p t q).length = (f q).length := by
        intro q hq
        have : q ≠ p := by have := List.mem_range.1 hq; omega
        simp [setP, this]
      rw [List.map_congr_left this]
      simp [setP, h]
      omega
    · have := ih (by omega)
      have e : setP f p t n = f n := by simp [setP, Ne.symm c]
      rw [e]
      omega

variable [DecidableEq A] {op : V → V → V}

/-- Every step does at least one action. -/
theorem left_step {n : Nat} {a b : DState A V} (h : DStep op a b) (hn : ∀ p, n ≤ p → a.rem p = []) :
    left n b + 1 ≤ left n a ∧ ∀ p, n ≤ p → b.rem p = [] := by
  have lt : ∀ {p d t}, a.rem p = d :: t → p < n := by
    intro p d t e
    rcases Nat.lt_or_ge p n with c | c
    · exact c
    · rw [hn p c] at e; cases e
  have one : ∀ {p d t}, a.rem p = d :: t → ∀ q, n ≤ q → setP a.rem p t q = [] := by
    intro p d t e q hq
    have := lt e
    unfold setP
    rw [if_neg (by omega)]
    exact hn q hq
  unfold left
  cases h with
  | sync _ h =>
    cases h with
    | copy p x y s d t h => exact ⟨le_of_eq (sum_setP n a.rem p t _ h (lt h)), one h⟩
    | recv p q x y d red t vs c h hc hl => exact ⟨le_of_eq (sum_setP n a.rem q t _ h (lt h)), one h⟩
    | meet p q x y x' y' s d red t t' hne hp hq hc hl =>
      have e1 := sum_setP n a.rem p t _ hp (lt hp)
      have e2 := sum_setP n (setP a.rem p t) q t' (.recv p x y d red) (by unfold setP; rw [if_neg (Ne.symm hne)]; exact hq) (lt hq)
      refine ⟨?_, ?_⟩
      · simp only []
        omega
      · intro r hr
        have := lt hq
        show setP (setP a.rem p t) q t' r = []
        unfold setP
        rw [if_neg (by omega)]
        exact one hp r hr
  | buf p q x y s t h => exact ⟨le_of_eq (sum_setP n a.rem p t _ h (lt h)), one h⟩

theorem left_steps {n k : Nat} {a b : DState A V} (h : DSteps op k a b) (hn : ∀ p, n ≤ p → a.rem p = []) :
    k + left n b ≤ left n a ∧ ∀ p, n ≤ p → b.rem p = [] := by
  induction h with
  | nil => exact ⟨by omega, hn⟩
  | snoc _ hs ih =>
    obtain ⟨i1, i2⟩ := ih hn
    obtain ⟨j1, j2⟩ := left_step hs i2
    exact ⟨by omega, j2⟩

end Laik.DE
