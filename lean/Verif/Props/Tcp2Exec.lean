import Verif.Model.Tcp2Cells
/-!
# C48: a switch of a 1d container over the TCP2 backend
-/

namespace Laik.DE

variable {A V : Type} [DecidableEq A]

/-- All processes `0..n-1` of a group switch from the partitioning with ranges `F`
to that with ranges `T`; process `p` runs `prog p`. -/
structure Switch (n redOp : Nat) (F T : List TR) (M : Nat → Cells A) (skip : Nat → Int → Int → Bool)
    (prog : Nat → List (DAct A)) : Prop where
  trans : TransOK n F T
  run : ∀ p < n, ∃ F' T' st, Calculated n redOp F T p F' T' st ∧ IsSwitch (M p) (skip p) p (st.res n p) (prog p)
  out : ∀ p, n ≤ p → prog p = []

omit [DecidableEq A] in
theorem sorted_nil (p : Nat) : Sorted p [] [] where
  perm := List.Perm.refl _
  kinds _ := rfl
  order := List.Pairwise.nil

theorem collect_red {M : Cells A} {me : Nat} {r : List (Act ROp)} {l : List (DAct A)}
    (h : collect (fun a => execAct M me a.content) r = some l) :
    ∀ op ∈ r.map (·.content), ∀ x y ins outs a b, op = .red x y ins outs a b → outs ≠ [] := by
  rintro op ho x y ins outs a b rfl rfl
  obtain ⟨h1, _⟩ := collect_some h
  obtain ⟨c, hc, e⟩ := List.mem_map.1 ho
  obtain ⟨l', hl'⟩ := h1 c hc
  rw [e] at hl'
  cases hl'

/-- Reachable states: messages and final memory are as expected. -/
theorem switch_inv {op : V → V → V} {n redOp : Nat} {F T : List TR} {M : Nat → Cells A} {skip : Nat → Int → Int → Bool}
    {prog : Nat → List (DAct A)} (hs : Switch n redOp F T M skip prog) {m0 : Nat → A → V} {val old : Nat → Int → V}
    (hm : MemOK F T M skip m0 val old) {k : Nat} {st : DState A V} (h : DSteps op k (DState.start prog m0) st) :
    (DDone st ∨ ∃ st', DRStep op st st') ∧
    (DDone st → ∀ r ∈ T, ∀ i, r.has i → st.mem r.task ((M r.task).dst r.mapNo i) = target op n F T val old i) := by
  have hall : ∃ (Fp Tp : Nat → List TR) (ts : Nat → TSt) (O : Nat → List ROp), ∀ p,
      (p < n → Calculated n redOp F T p (Fp p) (Tp p) (ts p)) ∧ Sorted p (opsOf n ts p) (O p) ∧
      (∀ op ∈ O p, ∀ x y ins outs a b, op = .red x y ins outs a b → outs ≠ []) ∧
      prog p = (ghost (M p) val (redRes op val old) (skip p) p (opsOf n ts p) (O p)).map (·.1) := by
    have one : ∀ p, ∃ (F' T' : List TR) (s : TSt) (O : List ROp), (p < n → Calculated n redOp F T p F' T' s) ∧
        Sorted p (if p < n then s.res n p else []) O ∧
        (∀ op ∈ O, ∀ x y ins outs a b, op = .red x y ins outs a b → outs ≠ []) ∧
        prog p = (ghost (M p) val (redRes op val old) (skip p) p (if p < n then s.res n p else []) O).map (·.1) := by
      intro p
      by_cases c : p < n
      · obtain ⟨F', T', s, hc, b, r, l, h1, h2, h3, h4⟩ := hs.run p c
        refine ⟨F', T', s, r.map (·.content), fun _ => hc, ?_, collect_red h3, ?_⟩
        · rw [if_pos c]
          exact sorted_of_ptrSort h1 h2
        · rw [if_pos c, h4, collect_ghost (M p) val (redRes op val old) p r h3]
          unfold ghost
          rw [List.map_append, ghostCopies_fst]
      · refine ⟨[], [], ⟨[], [], false, false, (0, 0), (0, 0), [], []⟩, [], fun h => absurd h c, ?_, ?_, ?_⟩
        · rw [if_neg c]
          exact sorted_nil p
        · intro op ho; cases ho
        · rw [if_neg c, hs.out p (by omega)]
          rfl
    refine ⟨fun p => Classical.choose (one p), fun p => Classical.choose (Classical.choose_spec (one p)),
      fun p => Classical.choose (Classical.choose_spec (Classical.choose_spec (one p))),
      fun p => Classical.choose (Classical.choose_spec (Classical.choose_spec (Classical.choose_spec (one p)))), fun p => ?_⟩
    exact Classical.choose_spec (Classical.choose_spec (Classical.choose_spec (Classical.choose_spec (one p))))
  obtain ⟨Fp, Tp, ts, O, hall⟩ := hall
  have ok := ghost_execOK M val (redRes op val old) skip
    (opsOK_of_calculated hs.trans Fp Tp ts (fun p hp => (hall p).1 hp)) (fun p => (hall p).2.1)
  have e : prog = fun p => (ghost (M p) val (redRes op val old) (skip p) p (opsOf n ts p) (O p)).map (·.1) :=
    funext (fun p => (hall p).2.2.2)
  rw [e] at h
  have hO : ∀ p, n ≤ p → ghost (M p) val (redRes op val old) (skip p) p (opsOf n ts p) (O p) = [] := by
    intro p hp
    have := (hall p).2.2.2
    rw [hs.out p hp] at this
    simpa using this.symm
  have hp : ∀ p, p < n → Calculated n redOp F T p (Fp p) (Tp p) (ts p) ∧ Sorted p ((ts p).res n p) (O p) ∧
      opsOf n ts p = (ts p).res n p := by
    intro p c
    have e : opsOf n ts p = (ts p).res n p := by unfold opsOf; rw [if_pos c]
    exact ⟨(hall p).1 c, e ▸ (hall p).2.1, e⟩
  have hcell : ∀ p, ∀ g ∈ ghost (M p) val (redRes op val old) (skip p) p (opsOf n ts p) (O p), g.cells (CellOf (M p) F T p) := by
    intro p g hg
    by_cases c : p < n
    · obtain ⟨h1, h2, h3⟩ := hp p c
      rw [h3] at hg
      exact ghost_cells hs.trans h1 (M p) val _ (skip p) h2 g hg
    · rw [hO p (by omega)] at hg; cases hg
  have hw : ∀ p, Walk op (m0 p) (ghost (M p) val (redRes op val old) (skip p) p (opsOf n ts p) (O p)) := by
    intro p
    by_cases c : p < n
    · refine walk_of_at (hm.sep p) _ (hcell p) (m0 p) ?_
      intro i
      obtain ⟨h1, h2, h3⟩ := hp p c
      rw [h3]
      exact (value_at hs.trans h1 hm h2 (hall p).2.2.1).1
    · rw [hO p (by omega)]; trivial
  obtain ⟨u, k', inv⟩ := DInv.reach ok hw h
  refine ⟨inv.progress ok, ?_⟩
  intro hd r hr i hi
  have c : r.task < n := hs.trans.goodT.task r hr
  rw [inv.done hd.1 r.task, final_at (hm.sep r.task) _ (hcell r.task) (m0 r.task) _ (Or.inr ⟨r, hr, rfl, hi, rfl⟩)]
  obtain ⟨h1, h2, h3⟩ := hp r.task c
  rw [h3]
  exact (value_at hs.trans h1 hm h2 (hall r.task).2.2.1).2 r hr rfl hi

/-- C48: no execution of a switch is stuck (in a deadlock, or because a message of
unexpected size arrived) before all processes are done, even without any buffering
of messages; the number of steps is bounded.  Missing: switches where the backend
aborts before it starts, see `C48_switch_exists_iff`. -/
theorem C48_switch_completes_partial {op : V → V → V} {n redOp : Nat} {F T : List TR} {M : Nat → Cells A}
    {skip : Nat → Int → Int → Bool} {prog : Nat → List (DAct A)} (hs : Switch n redOp F T M skip prog) {m0 : Nat → A → V}
    {val old : Nat → Int → V} (hm : MemOK F T M skip m0 val old) {k : Nat} {st : DState A V}
    (h : DSteps op k (DState.start prog m0) st) :
    (DDone st ∨ ∃ st', DRStep op st st') ∧ k ≤ ((List.range n).map (fun p => (prog p).length)).sum := by
  refine ⟨(switch_inv hs hm h).1, ?_⟩
  have := (left_steps (n := n) h hs.out).1
  have e : left n (DState.start prog m0) = ((List.range n).map (fun p => (prog p).length)).sum := rfl
  omega

/-- C48: when a switch is done, every process has at every index it owns in the
target the value of the only owner in the source, or the reduction of the values
of exactly all owners in the source.  All owners get the same.  Missing: for an
index without owner in the source, the value is `old`, not a specified one. -/
theorem C48_switch_delivers_partial {op : V → V → V} {n redOp : Nat} {F T : List TR} {M : Nat → Cells A}
    {skip : Nat → Int → Int → Bool} {prog : Nat → List (DAct A)} (hs : Switch n redOp F T M skip prog) {m0 : Nat → A → V}
    {val old : Nat → Int → V} (hm : MemOK F T M skip m0 val old) {k : Nat} {st : DState A V}
    (h : DSteps op k (DState.start prog m0) st) (hd : DDone st) {r : TR} (hr : r ∈ T) {i : Int} (hi : r.has i) :
    (∀ s, ownersAt F n i = [s] → st.mem r.task ((M r.task).dst r.mapNo i) = val s i) ∧
    ((ownersAt F n i).length ≠ 1 → ∀ r0, (ownersAt T n i).head? = some r0 → st.mem r.task ((M r.task).dst r.mapNo i) =
      combined op (fun q => val q i) (old r0 i) (ownersAt F n i) r0) := by
  have := (switch_inv hs hm h).2 hd r hr i hi
  refine ⟨?_, ?_⟩
  · intro s e
    rw [this]
    unfold target
    rw [e]
  · intro hl r0 hr0
    rw [this, target_red op val old i hl]
    unfold redRes
    have : (ownersAt T n i).headD 0 = r0 := by
      cases e : ownersAt T n i with
      | nil => rw [e] at hr0; cases hr0
      | cons a l => rw [e] at hr0; simpa using hr0
    rw [this]

/-- Every execution of a switch can be continued to its end. -/
theorem C48_switch_reaches_end {op : V → V → V} {n redOp : Nat} {F T : List TR} {M : Nat → Cells A}
    {skip : Nat → Int → Int → Bool} {prog : Nat → List (DAct A)} (hs : Switch n redOp F T M skip prog) {m0 : Nat → A → V}
    {val old : Nat → Int → V} (hm : MemOK F T M skip m0 val old) {k : Nat} {st : DState A V}
    (h : DSteps op k (DState.start prog m0) st) : ∃ k' st', k ≤ k' ∧ DSteps op k' (DState.start prog m0) st' ∧ DDone st' := by
  generalize hb : ((List.range n).map (fun p => (prog p).length)).sum = b
  obtain ⟨d, hd⟩ : ∃ d, d = b - k := ⟨_, rfl⟩
  induction d using Nat.strong_induction_on generalizing k st with
  | _ d ih =>
    obtain ⟨h1, h2⟩ := C48_switch_completes_partial hs hm h
    rcases h1 with h1 | ⟨st', h1⟩
    · exact ⟨k, st, Nat.le_refl _, h, h1⟩
    · have hn := DSteps.snoc h (DStep.sync _ _ h1)
      have h3 := (C48_switch_completes_partial hs hm hn).2
      obtain ⟨k', st', e1, e2, e3⟩ := ih (b - (k + 1)) (by omega) hn rfl
      exact ⟨k', st', by omega, e2, e3⟩

/-- For an associative and commutative operation, the result of a reduction does
not depend on the process doing it. -/
theorem C48_reduction_order {op : V → V → V} (hc : ∀ a b, op a b = op b a) (ha : ∀ a b c, op (op a b) c = op a (op b c))
    (val : Nat → V) (before : V) {t : Nat} {ts : List Nat} (hn : (t :: ts).Nodup) (r : Nat) :
    combined op val before (t :: ts) r = ts.foldl (fun v q => op v (val q)) (val t) := by
  unfold combined
  by_cases c : r ∈ t :: ts
  · rw [if_pos c]
    have comm : ∀ (l : List Nat) (v w : V), l.foldl (fun v q => op v (val q)) (op v w) = op (l.foldl (fun v q => op v (val q)) v) w := by
      intro l
      induction l with
      | nil => intro v w; rfl
      | cons q l ih =>
        intro v w
        rw [List.foldl_cons, List.foldl_cons, ← ih]
        congr 1
        rw [ha, ha, hc w]
    have hf : ∀ (l : List Nat), l.Nodup → ∀ (x : Nat), x ∈ l → ∀ v, (l.filter (fun t => decide (t ≠ x))).foldl (fun v q => op v (val q)) (op v (val x)) =
        l.foldl (fun v q => op v (val q)) v := by
      intro l hl x
      induction l with
      | nil => intro hx; cases hx
      | cons q l ih =>
        intro hx v
        rw [List.nodup_cons] at hl
        by_cases e : q = x
        · subst e
          rw [List.filter_cons_of_neg (by simp), List.foldl_cons]
          congr 1
          rw [List.filter_eq_self]
          intro b hb
          have : b ≠ q := by rintro rfl; exact hl.1 hb
          simp [this]
        · rw [List.filter_cons_of_pos (by simp [e]), List.foldl_cons, List.foldl_cons, ← ih hl.2 (by
            rcases List.mem_cons.1 hx with h | h
            · exact absurd h.symm e
            · exact h)]
          congr 1
          rw [ha, ha, hc (val x)]
    rw [List.nodup_cons] at hn
    by_cases e : t = r
    · subst e
      rw [List.filter_cons_of_neg (by simp), List.filter_eq_self.2]
      intro b hb
      have : b ≠ t := by rintro rfl; exact hn.1 hb
      simp [this]
    · have hr : r ∈ ts := by
        rcases List.mem_cons.1 c with h | h
        · exact absurd h.symm e
        · exact h
      rw [List.filter_cons_of_pos (by simp [e]), List.foldl_cons, hc, hf ts hn.2 r hr]
  · rw [if_neg c]

/-- A process can do its part of a switch if and only if every reduction it is
involved in has a process getting the result. -/
theorem C48_switch_exists_iff (M : Cells A) (skip : Int → Int → Bool) (me : Nat) (ops : List ROp) :
    (∃ prog, IsSwitch M skip me ops prog) ↔ ∀ r ∈ ops.filterMap rReds, r.outs ≠ [] := by
  constructor
  · rintro ⟨prog, s, r, l, h1, h2, h3, _⟩ x hx hnil
    obtain ⟨o, ho, e⟩ := List.mem_filterMap.1 hx
    cases o with
    | loc => cases e
    | send => cases e
    | recv => cases e
    | red x y ins outs a b =>
      cases e
      exact collect_red h3 _ ((sorted_of_ptrSort h1 h2).mem.2 ⟨ho, rfl⟩) _ _ _ _ _ _ rfl hnil
  · intro h
    obtain ⟨s, hs⟩ := (C21_sort_unique me (splitExecs ops)).1
    obtain ⟨r, hr, hre⟩ := C21_sort_2phases_partial me (splitExecs ops) s hs
    have hso := sorted_of_ptrSort hs hr
    have : ∃ l, collect (fun a => execAct M me a.content) r = some l := by
      have hmem : ∀ a ∈ r, ∃ l, execAct M me a.content = some l := by
        intro a ha
        have := hso.mem.1 (List.mem_map_of_mem ha)
        cases e : a.content with
        | loc => rw [e] at this; cases this.2
        | send => exact ⟨_, rfl⟩
        | recv => exact ⟨_, rfl⟩
        | red x y ins outs f t =>
          have hne := h ⟨x, y, ins, outs⟩ (List.mem_filterMap.2 ⟨_, this.1, by rw [e]; rfl⟩)
          unfold execAct execReduce
          cases outs with
          | nil => exact absurd rfl hne
          | cons b os =>
            simp only []
            split
            · exact ⟨_, rfl⟩
            · exact ⟨_, rfl⟩
      clear hr hso hre
      induction r with
      | nil => exact ⟨[], rfl⟩
      | cons a r ih =>
        obtain ⟨l1, e1⟩ := hmem a List.mem_cons_self
        obtain ⟨l2, e2⟩ := ih (fun b hb => hmem b (List.mem_cons_of_mem _ hb))
        refine ⟨l1 ++ l2, ?_⟩
        unfold collect
        rw [e1, e2]
        rfl
    obtain ⟨l, hl⟩ := this
    exact ⟨l ++ copyOps M skip ops, s, r, l, hs, hr, hl, rfl⟩

/-! ### Cases meeting the hypotheses -/

/-- Separate memory for source and target, a cell per index. -/
def twoMaps : Cells (Bool × Int) := ⟨fun _ i => (false, i), fun _ i => (true, i)⟩

theorem twoMaps_ok (F T : List TR) (m0 : Nat → Bool × Int → V) : MemOK F T (fun _ => twoMaps) (fun _ _ _ => false) m0
    (fun p i => m0 p (false, i)) (fun p i => m0 p (true, i)) where
  sep := by
    rintro p i j a (⟨r, _, _, _, rfl⟩ | ⟨r, _, _, _, rfl⟩) (⟨r', _, _, _, e⟩ | ⟨r', _, _, _, e⟩) <;>
      simpa [twoMaps] using e
  skip := by intro r _ r' _ _ h; cases h
  val _ _ _ _ := rfl
  old _ _ _ _ := rfl

/-- One map for both, reused without copies. -/
def oneMap : Cells Int := ⟨fun _ i => i, fun _ i => i⟩

theorem oneMap_ok (F T : List TR) (m0 : Nat → Int → V) : MemOK F T (fun _ => oneMap) (fun _ _ _ => true) m0 m0 m0 where
  sep := by
    rintro p i j a (⟨r, _, _, _, rfl⟩ | ⟨r, _, _, _, rfl⟩) (⟨r', _, _, _, e⟩ | ⟨r', _, _, _, e⟩) <;> exact e
  skip _ _ _ _ _ _ _ _ _ := rfl
  val _ _ _ _ := rfl
  old _ _ _ _ := rfl

def exBorders : List Border :=
  [⟨0, 0, 0, 0, true, true⟩, ⟨0, 1, 0, 0, true, true⟩, ⟨0, 0, 0, 0, true, false⟩, ⟨0, 1, 0, 0, true, false⟩,
    ⟨4, 0, 0, 0, false, true⟩, ⟨4, 1, 0, 0, false, true⟩, ⟨4, 0, 0, 0, false, false⟩, ⟨4, 1, 0, 0, false, false⟩]

def exRedSt : TSt := ⟨[], [], false, false, (0, 0), (0, 0), [[0, 1]], [.red 0 4 (-1) (-1) (0, 0) (0, 0)]⟩

theorem exRedCalculated {p : Nat} (hp : p < 2) : Calculated 2 4 exAll exAll p exAll exAll exRedSt := by
  refine ⟨Enough.refl (n := 2) _ _ ⟨by decide, by decide, by decide⟩ (by decide), Enough.refl (n := 2) _ _ ⟨by decide, by decide, by decide⟩ (by decide),
    exBorders, ⟨by decide, by decide⟩, ?_⟩
  obtain rfl | rfl : p = 0 ∨ p = 1 := by omega
  · decide
  · decide

/-- A switch with reduction of the values of two processes, result on both. -/
theorem exSwitch (M : Nat → Cells A) (skip : Nat → Int → Int → Bool) : ∃ prog, Switch 2 4 exAll exAll M skip prog := by
  have h : ∀ p, ∃ prog, p < 2 → IsSwitch (M p) (skip p) p (exRedSt.res 2 p) prog := by
    intro p
    obtain ⟨prog, h⟩ := (C48_switch_exists_iff (M p) (skip p) p (exRedSt.res 2 p)).2 (by
      rw [← redsOf_res]; decide)
    exact ⟨prog, fun _ => h⟩
  refine ⟨fun p => if p < 2 then Classical.choose (h p) else [], ⟨⟨by decide, by decide, by decide⟩, ⟨by decide, by decide, by decide⟩,
    by decide, by decide, fun r hr => by revert r; decide, fun r hr => by revert r; decide⟩, ?_, ?_⟩
  · intro p hp
    refine ⟨_, _, _, exRedCalculated hp, ?_⟩
    show IsSwitch _ _ _ _ (if p < 2 then _ else _)
    rw [if_pos hp]
    exact Classical.choose_spec (h p) hp
  · intro p hp
    simp only [if_neg (show ¬ p < 2 by omega)]

/-- All executions end, and then both processes have the sum. -/
example : ∃ prog, Switch 2 4 exAll exAll (fun _ => twoMaps) (fun _ _ _ => false) prog ∧
    (∃ k st, DSteps (· + ·) k (DState.start prog (fun p c => (p : Int) + c.2)) st ∧ DDone st) ∧
    ∀ k st, DSteps (· + ·) k (DState.start prog (fun p c => (p : Int) + c.2)) st → DDone st →
      st.mem 1 (true, 3) = 7 ∧ st.mem 0 (true, 3) = 7 := by
  obtain ⟨prog, hs⟩ := exSwitch (fun _ => twoMaps) (fun _ _ _ => false)
  refine ⟨prog, hs, ?_, ?_⟩
  · obtain ⟨k, st, _, h⟩ := C48_switch_reaches_end hs (twoMaps_ok exAll exAll _) (DSteps.nil _)
    exact ⟨k, st, h⟩
  · intro k st h hd
    have h1 := (C48_switch_delivers_partial hs (twoMaps_ok exAll exAll _) h hd (r := ⟨1, 0, iv 0 4, 0⟩) (i := 3) (by decide) (by decide)).2
      (by decide) 0 (by decide)
    have h0 := (C48_switch_delivers_partial hs (twoMaps_ok exAll exAll _) h hd (r := ⟨0, 0, iv 0 4, 0⟩) (i := 3) (by decide) (by decide)).2
      (by decide) 0 (by decide)
    exact ⟨h1.trans (by decide), h0.trans (by decide)⟩

/-- The same with one map used for both partitionings. -/
example : ∃ prog, Switch 2 4 exAll exAll (fun _ => oneMap) (fun _ _ _ => true) prog ∧
    ∀ k st, DSteps (· + ·) k (DState.start prog (fun p c => (p : Int) + c)) st → DDone st → st.mem 1 3 = 7 := by
  obtain ⟨prog, hs⟩ := exSwitch (fun _ => oneMap) (fun _ _ _ => true)
  refine ⟨prog, hs, ?_⟩
  intro k st h hd
  have h1 := (C48_switch_delivers_partial hs (oneMap_ok exAll exAll _) h hd (r := ⟨1, 0, iv 0 4, 0⟩) (i := 3) (by decide) (by decide)).2
    (by decide) 0 (by decide)
  exact h1.trans (by decide)

example : combined (· + ·) (fun t => (t : Int) * 10) 5 [1, 2, 4] 2 = 70 ∧ combined (· + ·) (fun t => (t : Int) * 10) 5 [1, 2, 4] 0 = 70 := by
  decide

/-! ### Where the code fails -/

/-- Values of two processes are reduced at indices nobody owns in the target: the
TCP2 backend stops with an assertion failure at every process with input. -/
theorem C48_reduction_without_target_aborts : TransOK 2 exAll [⟨0, 0, iv 2 4, 0⟩] ∧
    ∃ st, Calculated 2 4 exAll [⟨0, 0, iv 2 4, 0⟩] 0 exAll [⟨0, 0, iv 2 4, 0⟩] st ∧
      ∀ (M : Cells A) (skip : Int → Int → Bool), ¬ ∃ prog, IsSwitch M skip 0 (st.res 2 0) prog := by
  refine ⟨⟨⟨by decide, by decide, by decide⟩, ⟨by decide, by decide, by decide⟩, by decide, by decide,
    fun r hr => by revert r; decide, fun r hr => by revert r; decide⟩,
    ⟨[], [], false, false, (0, 0), (0, 0), [[0, 1], [], [0]], [.red 0 2 (-1) 1 (0, 0) (-1, -1), .red 2 4 (-1) 2 (0, 0) (0, 0)]⟩,
    ⟨Enough.refl (n := 2) _ _ ⟨by decide, by decide, by decide⟩ (by decide), Enough.refl (n := 2) _ _ ⟨by decide, by decide, by decide⟩ (by decide),
      [⟨0, 0, 0, 0, true, true⟩, ⟨0, 1, 0, 0, true, true⟩, ⟨2, 0, 0, 0, true, false⟩,
        ⟨4, 0, 0, 0, false, true⟩, ⟨4, 1, 0, 0, false, true⟩, ⟨4, 0, 0, 0, false, false⟩], ⟨by decide, by decide⟩, by decide⟩, ?_⟩
  intro M skip h
  rw [C48_switch_exists_iff, ← redsOf_res] at h
  exact absurd h (by decide)

end Laik.DE
