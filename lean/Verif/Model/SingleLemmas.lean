import Verif.Model.SingleExec
/-!
# Lemmas on 1d switches with one process
-/

namespace Laik.Sgl

open DE

variable {V : Type}

/-! ### Operations of the only process -/

theorem owners_one (L : List TR) (i : Int) : ownersAt L 1 i = [] ∨ ownersAt L 1 i = [0] := by
  unfold ownersAt
  rw [show List.range 1 = [0] from rfl, List.filter_cons]
  split
  · exact Or.inr rfl
  · exact Or.inl rfl

theorem specSeg_involved {n redOp p : Nat} {F T : List TR} {x y : Int} {l : List ROp} (h : specSeg n redOp p F T x y = some l)
    (hl : l ≠ []) : p ∈ ownersAt F n x ∨ p ∈ ownersAt T n x := by
  unfold specSeg at h
  simp only [] at h
  split at h
  · simp only [Option.some.injEq] at h
    exact absurd h.symm hl
  · rename_i c
    by_cases g : p ∈ ownersAt F n x
    · exact Or.inl g
    · by_cases g' : p ∈ ownersAt T n x
      · exact Or.inr g'
      · exact absurd ⟨g, g'⟩ c

/-- What an operation of the only process is: a copy of kept indices, or a
reduction without inputs for new indices. -/
inductive One (F T : List TR) : ROp → Prop
  | loc (x y : Int) (a b : Int × Int) (hxy : x < y)
      (h : ∀ i, x ≤ i → i < y → (∃ r ∈ F, r.has i ∧ r.mapNo = a.2) ∧ ∃ r ∈ T, r.has i ∧ r.mapNo = b.2) :
      One F T (.loc x y a b)
  | red (x y : Int) (a b : Option (Int × Int)) (hxy : x < y)
      (h : ∃ r ∈ T, ∀ i, x ≤ i → i < y → r.has i ∧ ∀ r' ∈ F, ¬ r'.has i) : One F T (.red x y [] [0] a b)

theorem one_of_calculated {redOp : Nat} {F T : List TR} (h : TransOK 1 F T) {F' T' : List TR} {st : TSt}
    (hc : Calculated 1 redOp F T 0 F' T' st) : ∀ o ∈ st.res 1 0, One F T o := by
  intro o ho
  obtain ⟨c1, c2⟩ := hc.segs h
  rw [c2] at ho
  obtain ⟨s, hs, ho⟩ := List.mem_flatMap.1 ho
  obtain ⟨l, el⟩ := c1 s hs
  rw [el, Option.getD_some] at ho
  have hlt := ((segs_mem (cutsOf_sorted F T) s).1 hs).2.2.1
  have hin := specSeg_involved el (List.ne_nil_of_mem ho)
  have key : ∀ (L : List TR), GoodList 1 L → (∀ r ∈ L, ∀ i, s.1 ≤ i ∧ i < s.2 → (r.has i ↔ r.has s.1)) → 0 ∈ ownersAt L 1 s.1 →
      ∃ r ∈ L, (∀ i, s.1 ≤ i → i < s.2 → r.has i) ∧ r.mapNo = (noAt L 0 s.1).2 := by
    intro L hL hseg hm
    obtain ⟨r, hr, e, hri⟩ := (mem_ownersAt hL.task s.1 0).1 hm
    refine ⟨r, hr, fun i h1 h2 => (hseg r hr i ⟨h1, h2⟩).2 hri, ?_⟩
    rw [← e, noAt_mapNo hL hr hri]
  have kF := key F h.goodF (fun r hr i hi => seg_has hs (Or.inl hr) hi)
  have kT := key T h.goodT (fun r hr i hi => seg_has hs (Or.inr hr) hi)
  rcases specSeg_cases el with ⟨_, _, rfl⟩ | ⟨e, rfl⟩ | ⟨q, hq, e, _⟩ | ⟨e, rfl⟩
  · cases ho
  · rcases owners_one T s.1 with eT | eT
    · rw [eT] at ho; cases ho
    · rw [eT] at ho
      rcases List.mem_singleton.1 ho with rfl
      simp only [if_true]
      obtain ⟨r, hr, h1, h2⟩ := kF (by rw [e]; exact List.mem_singleton.2 rfl)
      obtain ⟨r', hr', h1', h2'⟩ := kT (by rw [eT]; exact List.mem_singleton.2 rfl)
      exact .loc _ _ _ _ hlt (fun i a b => ⟨⟨r, hr, h1 i a b, h2⟩, r', hr', h1' i a b, h2'⟩)
  · rcases owners_one F s.1 with eF | eF
    · rw [eF] at e; cases e
    · rw [eF] at e; cases e; exact absurd rfl hq
  · rcases owners_one F s.1 with eF | eF
    · have hT : 0 ∈ ownersAt T 1 s.1 := by
        rcases hin with hin | hin
        · rw [eF] at hin; cases hin
        · exact hin
      rcases owners_one T s.1 with eT | eT
      · rw [eT] at hT; cases hT
      · rcases List.mem_singleton.1 ho with rfl
        rw [eF, eT]
        obtain ⟨r', hr', h1', h2'⟩ := kT hT
        refine .red _ _ _ _ hlt ⟨r', hr', fun i a b => ⟨h1' i a b, ?_⟩⟩
        intro r hr hri
        have : 0 ∈ ownersAt F 1 i := (mem_ownersAt h.goodF.task i 0).2 ⟨r, hr, by have := h.goodF.task r hr; omega, hri⟩
        rw [owners_const_of (fun r hr => seg_has hs (Or.inl hr) ⟨a, b⟩), eF] at this
        cases this
    · rw [eF] at e; exact absurd rfl e

theorem no_comm {F T : List TR} {ops : List ROp} (h : ∀ o ∈ ops, One F T o) :
    ops.any isRecvOp = false ∧ ops.any isSendOp = false := by
  constructor
  · rw [List.any_eq_false]
    intro o ho
    cases h o ho <;> simp [isRecvOp]
  · rw [List.any_eq_false]
    intro o ho
    cases h o ho <;> simp [isSendOp]

/-! ### Execution by the backend -/

theorem singleExec_eq {F T : List TR} {ops : List ROp} (h : ∀ o ∈ ops, One F T o) (c : SCtx) (m : Int → V) :
    singleExec c ops m = redsS c ops m := by
  obtain ⟨h1, h2⟩ := no_comm h
  unfold singleExec
  rw [h1, h2]
  cases redsS c ops m <;> rfl

theorem copyMaps_noloc (c : SCtx) {ops : List ROp} (h : ops.any isLoc = false) (m : Int → V) : copyMapsS c ops m = .ok m := by
  unfold copyMapsS
  split
  · rfl
  · rw [List.filter_eq_nil_iff.2]
    · rfl
    · intro o ho
      rw [List.any_eq_false] at h
      exact h o ho

theorem doTrans_eq {F T : List TR} {ops : List ROp} (h : ∀ o ∈ ops, One F T o) (c : SCtx) (m : Int → V) :
    doTransS c ops m = match singleExec c ops m with
      | .error e => .error e
      | .ok m => copyMapsS c ops m := by
  obtain ⟨h1, h2⟩ := no_comm h
  unfold doTransS
  have e1 : (if ops.any isSendOp || ops.any isRecvOp || ops.any isRedOp then singleExec c ops m else .ok m) = singleExec c ops m := by
    split
    · rfl
    · rename_i g
      rw [singleExec_eq h]
      unfold redsS
      rw [if_neg]
      intro g'
      exact g (by rw [g']; simp)
  rw [e1]
  cases singleExec c ops m with
  | error e => rfl
  | ok m' =>
    simp only []
    split
    · rfl
    · rename_i g
      rw [copyMaps_noloc]
      simpa using g

/-! ### Local copies -/

theorem okRange_sub {bl : List (Int × Int)} {k : Int × Int} (hk : k ∈ bl) {a n : Int} (h1 : k.1 ≤ a) (h2 : a + n ≤ k.2) :
    okRange bl a n = true := by
  unfold okRange
  rw [Bool.or_eq_true, List.any_eq_true]
  exact Or.inr ⟨k, hk, decide_eq_true ⟨h1, h2⟩⟩

/-- Memory situation of a switch with one process: all ranges have memory;
different indices have different cells; if nothing is copied, the cells are the
same. -/
structure SOK (c : SCtx) (F T : List TR) : Prop where
  mapF : ∀ r ∈ F, Mapped c.blocks c.fl r
  mapT : ∀ r ∈ T, Mapped c.blocks c.tl r
  sep : ∀ i j a, CellOf c.cells F T 0 i a → CellOf c.cells F T 0 j a → i = j
  same : ∀ r ∈ F, ∀ r' ∈ T, c.skip r.mapNo r'.mapNo = true → ∀ i, r.has i → r'.has i →
    c.cells.src r.mapNo i = c.cells.dst r'.mapNo i

/-- Memory after the loop of `copyMaps`. -/
theorem copyLoop_ok {c : SCtx} {F T : List TR} (ok : SOK c F T) (hres : c.sameRes = false) {ops : List ROp} (h : ∀ o ∈ ops, One F T o) (m : Int → V)
    (v : Int → V) :
    copyLoopS c (ops.filter isLoc) m = .ok (Final (fun a _ => a) m (ghostCopies c.cells c.skip v ops)) := by
  induction ops generalizing m with
  | nil => rfl
  | cons o ops ih =>
    replace ih := fun m => ih (fun x hx => h x (List.mem_cons_of_mem _ hx)) m
    cases h o List.mem_cons_self with
    | red x y a b hxy hr => exact ih m
    | loc x y a b hxy hl =>
      rw [List.filter_cons_of_pos (by rfl)]
      obtain ⟨⟨r, hr, hri, ea⟩, r', hr', hri', eb⟩ := hl x (by omega) (by omega)
      obtain ⟨p1, f, fb, f1, f2, f3, f4, k, hk, k1, k2⟩ := ok.mapF r hr
      obtain ⟨p1', t, tb, t1, t2, t3, t4, k', hk', k1', k2'⟩ := ok.mapT r' hr'
      rw [ea] at f1 p1
      rw [eb] at t1 p1'
      unfold copyLoopS
      rw [f1, t1]
      simp only []
      have hri2 := hri
      have hri2' := hri'
      unfold TR.has at hri2 hri2'
      rw [if_neg (by omega), if_neg (by rw [f2]; simp)]
      have ecs : c.cells.src a.2 = f.cell := by funext i; simp [SCtx.cells, f1]
      have ecd : c.cells.dst b.2 = t.cell := by funext i; simp [SCtx.cells, t1]
      have esk : c.skip a.2 b.2 = decide (f.reusedFor = b.2) := by simp [SCtx.skip, f1, hres]
      by_cases hs : f.reusedFor = b.2
      · rw [if_pos hs]
        have e := ok.same r hr r' hr' (by rw [ea, eb, esk]; exact decide_eq_true hs) x hri hri'
        rw [ea, eb, ecs, ecd] at e
        rw [if_pos e, ih]
        have : ghostCopies c.cells c.skip v (ROp.loc x y a b :: ops) = ghostCopies c.cells c.skip v ops := by
          unfold ghostCopies copyOps
          rw [List.filterMap_cons_none]
          simp [esk, hs]
        rw [this]
      · rw [if_neg hs]
        have hall : ∀ i, x ≤ i → i < y → f.lo ≤ i ∧ i < f.hi ∧ t.lo ≤ i ∧ i < t.hi := by
          intro i h1 h2
          obtain ⟨⟨q, hq, hqi, ea'⟩, q', hq', hqi', eb'⟩ := hl i h1 h2
          obtain ⟨_, f', fb', f1', f2', f3', f4', _⟩ := ok.mapF q hq
          obtain ⟨_, t', tb', t1', t2', t3', t4', _⟩ := ok.mapT q' hq'
          rw [ea', f1] at f1'
          rw [eb', t1] at t1'
          cases f1'; cases t1'
          unfold TR.has at hqi hqi'
          omega
        have h1 := hall x (by omega) (by omega)
        have h2 := hall (y - 1) (by omega) (by omega)
        have hcopy : copyRange c.blocks f t x y m = .ok (doCopy m x y f.cell t.cell) := by
          unfold copyRange
          rw [okRange_sub hk (by unfold SMap.cell; rw [f2, Option.getD_some]; omega) (by unfold SMap.cell; rw [f2, Option.getD_some]; omega),
            okRange_sub hk' (by unfold SMap.cell; rw [t2, Option.getD_some]; omega) (by unfold SMap.cell; rw [t2, Option.getD_some]; omega)]
          rfl
        rw [hcopy]
        simp only []
        rw [ih]
        have : ghostCopies c.cells c.skip v (ROp.loc x y a b :: ops) =
            (DAct.copy x y f.cell t.cell, v, 0) :: ghostCopies c.cells c.skip v ops := by
          unfold ghostCopies copyOps
          rw [List.filterMap_cons_some (b := DAct.copy x y f.cell t.cell)]
          · rfl
          · simp [esk, hs, ecs, ecd]
        rw [this]
        rfl

/-- Values after the local copies. -/
theorem copies_value {c : SCtx} {F T : List TR} (ok : SOK c F T) (h : TransOK 1 F T) {redOp : Nat} {F' T' : List TR} {st : TSt}
    (hc : Calculated 1 redOp F T 0 F' T' st) {m1 : Int → V} {v : Int → V}
    (hv : ∀ r ∈ F, ∀ i, r.has i → (∃ r' ∈ T, r'.has i) → m1 (c.cells.src r.mapNo i) = v i) :
    ∃ m2, copyMapsS c (st.res 1 0) m1 = .ok m2 ∧
      ∀ r ∈ T, ∀ i, r.has i → (∃ r' ∈ F, r'.has i) → m2 (c.cells.dst r.mapNo i) = v i := by
  have hone := one_of_calculated h hc
  by_cases hres : c.sameRes = true
  · refine ⟨m1, by unfold copyMapsS; rw [if_pos hres], ?_⟩
    rintro r hr i hri ⟨r', hr', hri'⟩
    rw [← ok.same r' hr' r hr (by unfold SCtx.skip; rw [hres]; rfl) i hri' hri]
    exact hv r' hr' i hri' ⟨r, hr, hri⟩
  · have hres' : c.sameRes = false := by simpa using hres
    refine ⟨_, by unfold copyMapsS; rw [if_neg hres]; exact copyLoop_ok ok hres' hone m1 v, ?_⟩
    rintro r hr i hri ⟨r', hr', hri'⟩
    have t0 : r.task = 0 := by have := h.goodT.task r hr; omega
    have t0' : r'.task = 0 := by have := h.goodF.task r' hr'; omega
    rw [final_at (C := CellOf c.cells F T 0) ok.sep _ ?_ m1 _ (Or.inr ⟨r, hr, t0, hri, rfl⟩)]
    · obtain ⟨s, hs, hsi⟩ := segs_cover (cutsOf_sorted F T) ((mem_cutsOf F T _).2 ⟨r, Or.inr hr, Or.inl rfl⟩)
        ((mem_cutsOf F T _).2 ⟨r, Or.inr hr, Or.inr rfl⟩) hri.1 hri.2
      obtain ⟨l, el⟩ := (hc.segs h).1 s hs
      have hat := ops_at h hc hs hsi el
      have oF : 0 ∈ ownersAt F 1 i := (mem_ownersAt h.goodF.task i 0).2 ⟨r', hr', t0', hri'⟩
      have oT : 0 ∈ ownersAt T 1 i := (mem_ownersAt h.goodT.task i 0).2 ⟨r, hr, t0, hri⟩
      rw [owners_const_of (fun r hr => seg_has hs (Or.inl hr) hsi)] at oF
      rw [owners_const_of (fun r hr => seg_has hs (Or.inr hr) hsi)] at oT
      have eF : ownersAt F 1 s.1 = [0] := by
        rcases owners_one F s.1 with e | e
        · rw [e] at oF; cases oF
        · exact e
      have eT : ownersAt T 1 s.1 = [0] := by
        rcases owners_one T s.1 with e | e
        · rw [e] at oT; cases oT
        · exact e
      have nF : (noAt F 0 s.1).2 = r'.mapNo := by
        rw [← noAt_const (fun r hr => seg_has hs (Or.inl hr) hsi), ← t0', noAt_mapNo h.goodF hr' hri']
      have nT : (noAt T 0 s.1).2 = r.mapNo := by
        rw [← noAt_const (fun r hr => seg_has hs (Or.inr hr) hsi), ← t0, noAt_mapNo h.goodT hr hri]
      have hl : l = [.loc s.1 s.2 (noAt F 0 s.1) (noAt T 0 s.1)] := by
        rcases specSeg_cases el with ⟨c, _, _⟩ | ⟨_, rfl⟩ | ⟨q, hq, e, _⟩ | ⟨e, _⟩
        · exact absurd oF c
        · rw [eT]; rfl
        · rw [eF] at e; cases e; exact absurd rfl hq
        · rw [eF] at e; exact absurd rfl e
      rw [copyOps_filter, hat, hl]
      have hsrc := hv r' hr' i hri' ⟨r, hr, hri⟩
      by_cases hsk : c.skip r'.mapNo r.mapNo = true
      · have : ghostCopies c.cells c.skip v [.loc s.1 s.2 (noAt F 0 s.1) (noAt T 0 s.1)] = [] := by
          simp [ghostCopies, copyOps, nF, nT, hsk]
        rw [this, List.foldl_nil, ← ok.same r' hr' r hr hsk i hri' hri, hsrc]
      · have : ghostCopies c.cells c.skip v [.loc s.1 s.2 (noAt F 0 s.1) (noAt T 0 s.1)] =
            [(DAct.copy s.1 s.2 (c.cells.src r'.mapNo) (c.cells.dst r.mapNo), v, 0)] := by
          simp [ghostCopies, copyOps, nF, nT, hsk]
        rw [this, List.foldl_cons, List.foldl_nil]
        simp only [stepAt]
        rw [put_same, hsrc]
    · intro g hg i h1 h2
      unfold ghostCopies at hg
      obtain ⟨d, hd, rfl⟩ := List.mem_map.1 hg
      unfold copyOps at hd
      obtain ⟨o, ho, e⟩ := List.mem_filterMap.1 hd
      cases o with
      | send => cases e
      | recv => cases e
      | red => cases e
      | loc x y a b =>
        simp only [] at e
        split at e
        · cases e
        · cases e
          exact op_cells h hc c.cells ho ⟨h1, h2⟩

end Laik.Sgl
