import Verif.Model.Tcp2Values
/-!
# Values after a switch over the TCP2 backend, at one index
-/

namespace Laik.DE

variable {A V : Type}

/-- `a` is a memory cell of index `i` at process `p`, in a mapping of the source
or of the target partitioning. -/
def CellOf (M : Cells A) (F T : List TR) (p : Nat) (i : Int) (a : A) : Prop :=
  (∃ r ∈ F, r.task = p ∧ r.has i ∧ a = M.src r.mapNo i) ∨ (∃ r ∈ T, r.task = p ∧ r.has i ∧ a = M.dst r.mapNo i)

/-- Value at `i` after the switch: `val q i` is the value of process `q` in the
source mapping, `old q i` the value in the target mapping before. -/
def target (op : V → V → V) (n : Nat) (F T : List TR) (val old : Nat → Int → V) (i : Int) : V :=
  match ownersAt F n i with
  | [s] => val s i
  | ins => combined op (fun q => val q i) (old ((ownersAt T n i).headD 0) i) ins ((ownersAt T n i).headD 0)

/-- Result of a reduction, for process lists. -/
def redRes (op : V → V → V) (val old : Nat → Int → V) (ins outs : List Nat) (i : Int) : V :=
  combined op (fun q => val q i) (old (outs.headD 0) i) ins (outs.headD 0)

theorem target_red (op : V → V → V) {n : Nat} {F T : List TR} (val old : Nat → Int → V) (i : Int)
    (h : (ownersAt F n i).length ≠ 1) : target op n F T val old i = redRes op val old (ownersAt F n i) (ownersAt T n i) i := by
  unfold target redRes
  generalize ownersAt F n i = ins at *
  match ins, h with
  | [], _ => rfl
  | [a], h => exact absurd rfl h
  | a :: b :: l, _ => rfl

/-! ### Ranges and cells of lowered operations -/

theorem ghostRecvs_mem (val : Nat → Int → V) (x y : Int) (dst : Int → A) (red : Bool) (l : List Nat) :
    ∀ g ∈ ghostRecvs val x y dst red l, ∃ t ∈ l, ∃ b, g.1 = .recv t x y dst b := by
  induction l generalizing red with
  | nil => intro g hg; cases hg
  | cons t l ih =>
    intro g hg
    unfold ghostRecvs at hg
    rcases List.mem_cons.1 hg with rfl | hg
    · exact ⟨t, List.mem_cons_self, red, rfl⟩
    · obtain ⟨t', h1, h2⟩ := ih _ g hg
      exact ⟨t', List.mem_cons_of_mem _ h1, h2⟩

/-- Members of a lowered operation: range and cells used. -/
theorem ghostOp_mem (M : Cells A) (val : Nat → Int → V) (res : List Nat → List Nat → Int → V) (p : Nat) (op : ROp)
    {g : GA A V} (hg : g ∈ ghostOp M val res p op) (P : (Int → A) → Prop)
    (hsend : ∀ x y a t, op = .send x y a t → P (M.src a.2))
    (hrecv : ∀ x y b s, op = .recv x y b s → P (M.dst b.2))
    (hin : ∀ x y ins outs a b, op = .red x y ins outs a b → p ∈ ins → P (M.src (a.getD (-1, -1)).2))
    (hout : ∀ x y ins outs a b, op = .red x y ins outs a b → p ∈ outs → P (M.dst (b.getD (-1, -1)).2)) :
    g.1.lo = opLo op ∧ g.1.hi = opHi op ∧ match g.1 with
      | .copy _ _ s d => P s ∧ P d
      | .send _ _ _ s => P s
      | .recv _ _ _ d _ => P d := by
  cases op with
  | loc => cases hg
  | send x y a t => rcases List.mem_singleton.1 hg with rfl; exact ⟨rfl, rfl, hsend x y a t rfl⟩
  | recv x y a t => rcases List.mem_singleton.1 hg with rfl; exact ⟨rfl, rfl, hrecv x y a t rfl⟩
  | red x y ins outs a b =>
    replace hin := hin x y ins outs a b rfl
    replace hout := hout x y ins outs a b rfl
    unfold ghostOp at hg
    cases outs with
    | nil => cases hg
    | cons r os =>
      simp only [] at hg
      by_cases c : p = r
      · subst c
        rw [if_neg (by simp)] at hg
        have hout := hout List.mem_cons_self
        rcases List.mem_append.1 hg with hg | hg
        · rcases List.mem_append.1 hg with hg | hg
          · split at hg
            · rename_i hi
              rcases List.mem_singleton.1 hg with rfl
              exact ⟨rfl, rfl, hin hi, hout⟩
            · cases hg
          · obtain ⟨t, _, b', e⟩ := ghostRecvs_mem val x y _ _ _ g hg
            rw [e]
            exact ⟨rfl, rfl, hout⟩
        · obtain ⟨t, _, rfl⟩ := List.mem_map.1 hg
          exact ⟨rfl, rfl, hout⟩
      · rw [if_pos c] at hg
        rcases List.mem_append.1 hg with hg | hg
        · split at hg
          · rename_i hi
            rcases List.mem_singleton.1 hg with rfl
            exact ⟨rfl, rfl, hin hi⟩
          · cases hg
        · split at hg
          · rename_i ho
            rcases List.mem_singleton.1 hg with rfl
            exact ⟨rfl, rfl, hout ho⟩
          · cases hg

theorem ghostOp_lohi (M : Cells A) (val : Nat → Int → V) (res : List Nat → List Nat → Int → V) (p : Nat) (op : ROp)
    {g : GA A V} (hg : g ∈ ghostOp M val res p op) (i : Int) : g.has i = opHas i op := by
  have := ghostOp_mem M val res p op hg (fun _ => True) (fun _ _ _ _ _ => trivial) (fun _ _ _ _ _ => trivial)
    (fun _ _ _ _ _ _ _ _ => trivial) (fun _ _ _ _ _ _ _ _ => trivial)
  unfold GA.has opHas
  rw [this.1, this.2.1]

theorem filter_flatMap_has {α β : Type} (f : α → List β) (P : α → Bool) (Q : β → Bool) (l : List α)
    (h : ∀ a ∈ l, ∀ b ∈ f a, Q b = P a) : (l.flatMap f).filter Q = (l.filter P).flatMap f := by
  induction l with
  | nil => rfl
  | cons a l ih =>
    rw [List.flatMap_cons, List.filter_append, ih (fun b hb => h b (List.mem_cons_of_mem _ hb))]
    have ha := h a List.mem_cons_self
    cases c : P a
    · rw [List.filter_cons_of_neg (by simp [c]), List.filter_eq_nil_iff.2, List.nil_append]
      intro b hb
      rw [ha b hb, c]; simp
    · rw [List.filter_cons_of_pos c, List.flatMap_cons, List.filter_eq_self.2]
      intro b hb
      rw [ha b hb, c]

theorem copyOps_filter (M : Cells A) (skip : Int → Int → Bool) (v : Int → V) (ops : List ROp) (i : Int) :
    (ghostCopies M skip v ops).filter (fun g => g.has i) = ghostCopies M skip v (ops.filter (opHas i)) := by
  unfold ghostCopies copyOps
  induction ops with
  | nil => rfl
  | cons op ops ih =>
    by_cases c : opHas i op = true
    · rw [List.filter_cons_of_pos c]
      cases op with
      | send => exact ih
      | recv => exact ih
      | red => exact ih
      | loc x y a b =>
        by_cases hs : skip a.2 b.2 = true
        · rw [List.filterMap_cons_none (by simp [hs]), List.filterMap_cons_none (by simp [hs])]
          exact ih
        · rw [List.filterMap_cons_some (b := DAct.copy x y (M.src a.2) (M.dst b.2)) (by simp [hs]),
            List.filterMap_cons_some (b := DAct.copy x y (M.src a.2) (M.dst b.2)) (by simp [hs]), List.map_cons, List.map_cons,
            List.filter_cons_of_pos (p := fun g : GA A V => g.has i) (by
              unfold opHas at c
              rw [decide_eq_true_eq] at c
              unfold GA.has
              rw [decide_eq_true_eq]
              exact c), ih]
    · rw [List.filter_cons_of_neg c]
      cases op with
      | send => exact ih
      | recv => exact ih
      | red => exact ih
      | loc x y a b =>
        by_cases hs : skip a.2 b.2 = true
        · rw [List.filterMap_cons_none (by simp [hs])]
          exact ih
        · rw [List.filterMap_cons_some (b := DAct.copy x y (M.src a.2) (M.dst b.2)) (by simp [hs]), List.map_cons,
            List.filter_cons_of_neg (p := fun g : GA A V => g.has i) (by
              unfold opHas at c
              rw [decide_eq_true_eq] at c
              unfold GA.has
              rw [decide_eq_true_eq]
              exact c), ih]

theorem ghost_filter (M : Cells A) (val : Nat → Int → V) (res : List Nat → List Nat → Int → V) (skip : Int → Int → Bool)
    (p : Nat) (ops O : List ROp) (i : Int) : (ghost M val res skip p ops O).filter (fun g => g.has i) =
      (O.filter (opHas i)).flatMap (ghostOp M val res p) ++ ghostCopies M skip (val p) (ops.filter (opHas i)) := by
  unfold ghost
  rw [List.filter_append, copyOps_filter]
  congr 1
  apply filter_flatMap_has
  intro op _ g hg
  exact ghostOp_lohi M val res p op hg i

/-! ### Walks at one index -/

variable [DecidableEq A] {op : V → V → V} {i : Int}

theorem walkAt_append (m : A → V) (l l' : List (GA A V)) :
    WalkAt op i m (l ++ l') ↔ WalkAt op i m l ∧ WalkAt op i (l.foldl (stepAt op i) m) l' := by
  induction l generalizing m with
  | nil => simp [WalkAt]
  | cons g l ih =>
    rw [List.cons_append]
    simp only [WalkAt, List.foldl_cons, ih]
    exact and_assoc.symm

/-- Sends only, all with the expected contents. -/
theorem walkAt_sends (m : A → V) (l : List (GA A V))
    (h : ∀ g ∈ l, ∃ q x y s, g.1 = .send q x y s ∧ m (s i) = g.2.1 i) :
    WalkAt op i m l ∧ l.foldl (stepAt op i) m = m := by
  induction l with
  | nil => exact ⟨trivial, rfl⟩
  | cons g l ih =>
    obtain ⟨ih1, ih2⟩ := ih (fun x hx => h x (List.mem_cons_of_mem _ hx))
    obtain ⟨q, x, y, s, e, hv⟩ := h g List.mem_cons_self
    have es : stepAt op i m g = m := by unfold stepAt; rw [e]
    refine ⟨⟨?_, by rw [es]; exact ih1⟩, by rw [List.foldl_cons, es, ih2]⟩
    rw [e]
    exact hv

theorem walkAt_recvs (val : Nat → Int → V) (x y : Int) (dst : Int → A) (red : Bool) (l : List Nat) (m : A → V) :
    WalkAt op i m (ghostRecvs val x y dst red l) ∧
    (ghostRecvs val x y dst red l).foldl (stepAt op i) m (dst i) =
      if red then l.foldl (fun v t => op v (val t i)) (m (dst i)) else
        match l with
        | [] => m (dst i)
        | t :: ts => ts.foldl (fun v t => op v (val t i)) (val t i) := by
  induction l generalizing red m with
  | nil =>
    refine ⟨trivial, ?_⟩
    cases red <;> rfl
  | cons t l ih =>
    unfold ghostRecvs
    obtain ⟨h1, h2⟩ := ih true (stepAt op i m (DAct.recv t x y dst red, val t, rnd x))
    refine ⟨⟨trivial, h1⟩, ?_⟩
    rw [List.foldl_cons, h2, if_pos rfl]
    simp only [stepAt, put_same]
    cases red <;> rfl

/-- A reduction: contents are as expected, and result. -/
theorem walkAt_red (M : Cells A) (val old : Nat → Int → V) (p : Nat) (x y : Int) (ins : List Nat) {outs : List Nat}
    (hne : outs ≠ []) (a b : Option (Int × Int)) (m : A → V)
    (hin : p ∈ ins → m (M.src (a.getD (-1, -1)).2 i) = val p i)
    (hout : p ∈ outs → m (M.dst (b.getD (-1, -1)).2 i) = old p i) :
    WalkAt op i m (ghostOp M val (redRes op val old) p (.red x y ins outs a b)) ∧
    (p ∈ outs → (ghostOp M val (redRes op val old) p (.red x y ins outs a b)).foldl (stepAt op i) m
      (M.dst (b.getD (-1, -1)).2 i) = redRes op val old ins outs i) := by
  unfold ghostOp
  cases outs with
  | nil => exact absurd rfl hne
  | cons r os =>
    simp only []
    by_cases c : p = r
    · subst c
      have hout := hout List.mem_cons_self
      rw [if_neg (by simp)]
      generalize M.dst (b.getD (-1, -1)).2 = dst at *
      generalize M.src (a.getD (-1, -1)).2 = src at *
      rw [walkAt_append, walkAt_append, List.foldl_append, List.foldl_append]
      generalize hm1 : (if p ∈ ins then [((DAct.copy x y src dst, val p, 0) : GA A V)] else []).foldl (stepAt op i) m = m1
      have hm1' : m1 (dst i) = if p ∈ ins then val p i else old p i := by
        rw [← hm1]
        by_cases hp : p ∈ ins
        · rw [if_pos hp, if_pos hp, List.foldl_cons, List.foldl_nil]
          simp only [stepAt, put_same]
          exact hin hp
        · rw [if_neg hp, if_neg hp, List.foldl_nil]
          exact hout
      obtain ⟨r1, r2⟩ := walkAt_recvs (op := op) (i := i) val x y dst (decide (p ∈ ins)) (ins.filter (fun q => decide (q ≠ p))) m1
      have hres : (ghostRecvs val x y dst (decide (p ∈ ins)) (ins.filter (fun q => decide (q ≠ p)))).foldl (stepAt op i) m1 (dst i) =
          redRes op val old ins (p :: os) i := by
        rw [r2]
        unfold redRes combined
        rw [List.headD_cons]
        by_cases hp : p ∈ ins
        · rw [if_pos (by simp [hp]), if_pos hp, hm1', if_pos hp]
        · rw [if_neg (by simp [hp]), if_neg hp]
          have e : ins.filter (fun q => decide (q ≠ p)) = ins := by
            rw [List.filter_eq_self]
            intro q hq
            have : q ≠ p := by rintro rfl; exact hp hq
            simp [this]
          rw [e, hm1', if_neg hp]
          rfl
      generalize hm2 : (ghostRecvs val x y dst (decide (p ∈ ins)) (ins.filter (fun q => decide (q ≠ p)))).foldl (stepAt op i) m1 = m2 at *
      obtain ⟨s1, s2⟩ := walkAt_sends (op := op) (i := i) m2
        (((p :: os).filter (fun q => decide (q ≠ p))).map (fun q => ((DAct.send q x y dst, redRes op val old ins (p :: os), rnd x + 1) : GA A V)))
        (by
          intro g hg
          obtain ⟨q, _, rfl⟩ := List.mem_map.1 hg
          exact ⟨q, x, y, dst, rfl, hres⟩)
      refine ⟨⟨⟨?_, r1⟩, s1⟩, ?_⟩
      · split
        · exact ⟨trivial, trivial⟩
        · trivial
      · intro _
        rw [List.foldl_append, hm1, hm2, s2, hres]
    · rw [if_pos c, walkAt_append, List.foldl_append]
      obtain ⟨s1, s2⟩ := walkAt_sends (op := op) (i := i) m
        (if p ∈ ins then [((DAct.send r x y (M.src (a.getD (-1, -1)).2), val p, rnd x) : GA A V)] else [])
        (by
          intro g hg
          split at hg
          · rename_i hp
            rcases List.mem_singleton.1 hg with rfl
            exact ⟨r, x, y, _, rfl, hin hp⟩
          · cases hg)
      refine ⟨⟨s1, ?_⟩, ?_⟩
      · rw [s2]
        split
        · exact ⟨trivial, trivial⟩
        · trivial
      · intro hp
        rw [s2, if_pos hp, List.foldl_cons, List.foldl_nil]
        simp only [stepAt, put_same]
        rfl

/-- Assumptions on the memory of all processes: cells of different indices are
different; where copies are skipped, both mappings use the same cell for an
index.  `val` and `old` are the values before the switch. -/
structure MemOK (F T : List TR) (M : Nat → Cells A) (skip : Nat → Int → Int → Bool) (m0 : Nat → A → V) (val old : Nat → Int → V) :
    Prop where
  sep : ∀ p i j a, CellOf (M p) F T p i a → CellOf (M p) F T p j a → i = j
  skip : ∀ r ∈ F, ∀ r' ∈ T, r.task = r'.task → skip r.task r.mapNo r'.mapNo = true → ∀ i, r.has i → r'.has i →
    (M r.task).src r.mapNo i = (M r.task).dst r'.mapNo i
  val : ∀ r ∈ F, ∀ i, r.has i → val r.task i = m0 r.task ((M r.task).src r.mapNo i)
  old : ∀ r ∈ T, ∀ i, r.has i → old r.task i = m0 r.task ((M r.task).dst r.mapNo i)

/-- Contents and result at index `i` of process `p`. -/
theorem value_at {n redOp : Nat} {F T : List TR} (h : TransOK n F T) {p : Nat} {F' T' : List TR} {st : TSt}
    (hc : Calculated n redOp F T p F' T' st) {M : Nat → Cells A} {skip : Nat → Int → Int → Bool} {m0 : Nat → A → V}
    {val old : Nat → Int → V} (hm : MemOK F T M skip m0 val old) {O : List ROp} (hO : Sorted p (st.res n p) O)
    (hne : ∀ op ∈ O, ∀ x y ins outs a b, op = .red x y ins outs a b → outs ≠ []) :
    WalkAt op i (m0 p) ((ghost (M p) val (redRes op val old) (skip p) p (st.res n p) O).filter (fun g => g.has i)) ∧
    ∀ r ∈ T, r.task = p → r.has i →
      ((ghost (M p) val (redRes op val old) (skip p) p (st.res n p) O).filter (fun g => g.has i)).foldl (stepAt op i) (m0 p)
        ((M p).dst r.mapNo i) = target op n F T val old i := by
  rw [ghost_filter]
  by_cases hseg : ∃ s ∈ segsOf (cutsOf F T), s.1 ≤ i ∧ i < s.2
  swap
  · -- no range includes the index
    have hnil : (st.res n p).filter (opHas i) = [] := by
      rw [List.filter_eq_nil_iff]
      intro op ho hh
      obtain ⟨c1, c2⟩ := hc.segs h
      rw [c2] at ho
      obtain ⟨s, hs, ho⟩ := List.mem_flatMap.1 ho
      obtain ⟨l, el⟩ := c1 s hs
      rw [el] at ho
      obtain ⟨e1, e2⟩ := specSeg_lohi el op ho
      unfold opHas at hh
      rw [e1, e2, decide_eq_true_eq] at hh
      exact hseg ⟨s, hs, hh⟩
    have hnil' : O.filter (opHas i) = [] := by
      rw [List.filter_eq_nil_iff] at hnil ⊢
      intro op ho
      exact hnil op (hO.mem.1 ho).1
    rw [hnil, hnil']
    refine ⟨trivial, ?_⟩
    intro r hr _ hi
    exact absurd (segs_cover (cutsOf_sorted F T) ((mem_cutsOf F T _).2 ⟨r, Or.inr hr, Or.inl rfl⟩)
        ((mem_cutsOf F T _).2 ⟨r, Or.inr hr, Or.inr rfl⟩) hi.1 hi.2) hseg
  obtain ⟨s, hs, hi⟩ := hseg
  obtain ⟨l, el⟩ := (hc.segs h).1 s hs
  have hat := ops_at h hc hs hi el
  have oF : ownersAt F n i = ownersAt F n s.1 := owners_const_of (fun r hr => seg_has hs (Or.inl hr) hi)
  have oT : ownersAt T n i = ownersAt T n s.1 := owners_const_of (fun r hr => seg_has hs (Or.inr hr) hi)
  have nF : noAt F p i = noAt F p s.1 := noAt_const (fun r hr => seg_has hs (Or.inl hr) hi)
  have nT : noAt T p i = noAt T p s.1 := noAt_const (fun r hr => seg_has hs (Or.inr hr) hi)
  have hvalF : p ∈ ownersAt F n i → m0 p ((M p).src (noAt F p i).2 i) = val p i := by
    intro hp
    obtain ⟨r, hr, rfl, hri⟩ := (mem_ownersAt h.goodF.task i p).1 hp
    rw [noAt_mapNo h.goodF hr hri, hm.val r hr i hri]
  have holdT : p ∈ ownersAt T n i → m0 p ((M p).dst (noAt T p i).2 i) = old p i := by
    intro hp
    obtain ⟨r, hr, rfl, hri⟩ := (mem_ownersAt h.goodT.task i p).1 hp
    rw [noAt_mapNo h.goodT hr hri, hm.old r hr i hri]
  have hOl : ∀ op ∈ O.filter (opHas i), op ∈ l := by
    intro op ho
    rw [List.mem_filter] at ho
    rw [← hat, List.mem_filter]
    exact ⟨(hO.mem.1 ho.1).1, ho.2⟩
  have hTp : ∀ r ∈ T, r.task = p → r.has i → (noAt T p i).2 = r.mapNo ∧ p ∈ ownersAt T n i := by
    rintro r hr rfl hri
    exact ⟨noAt_mapNo h.goodT hr hri, (mem_ownersAt h.goodT.task i _).2 ⟨r, hr, rfl, hri⟩⟩
  have ocase := specSeg_cases el
  rw [← oF, ← oT, ← nF, ← nT] at ocase
  rcases ocase with ⟨c1, c2, rfl⟩ | ⟨c1, e⟩ | ⟨q, hq, c1, e⟩ | ⟨c1, e⟩
  · -- not involved
    have : O.filter (opHas i) = [] := by
      rw [List.eq_nil_iff_forall_not_mem]
      intro op ho
      exact absurd (hOl op ho) (by simp)
    rw [this, hat]
    refine ⟨trivial, ?_⟩
    intro r hr hp hri
    exact absurd (hTp r hr hp hri).2 c2
  · -- only owner before
    have hpin : p ∈ ownersAt F n i := by rw [c1]; simp
    obtain ⟨w1, w2⟩ := walkAt_sends (op := op) (i := i) (m0 p) ((O.filter (opHas i)).flatMap (ghostOp (M p) val (redRes op val old) p))
      (by
        intro g hg
        obtain ⟨o, ho, hg⟩ := List.mem_flatMap.1 hg
        have hol := hOl o ho
        rw [e] at hol
        obtain ⟨t, _, et⟩ := List.mem_map.1 hol
        have hloc := (hO.mem.1 (List.mem_filter.1 ho).1).2
        split at et
        · rw [← et] at hloc; cases hloc
        · rw [← et] at hg
          rcases List.mem_singleton.1 hg with rfl
          exact ⟨_, _, _, _, rfl, hvalF hpin⟩)
    rw [walkAt_append, List.foldl_append, w2]
    have hcop : ghostCopies (M p) (skip p) (val p) ((st.res n p).filter (opHas i)) =
        if p ∈ ownersAt T n i ∧ skip p (noAt F p i).2 (noAt T p i).2 = false then
          [(DAct.copy s.1 s.2 ((M p).src (noAt F p i).2) ((M p).dst (noAt T p i).2), val p, 0)] else [] := by
      rw [hat, e]
      unfold ghostCopies copyOps
      rw [List.filterMap_map]
      by_cases hsk : skip p (noAt F p i).2 (noAt T p i).2 = true
      · rw [if_neg (by simp [hsk]), filterMap_none]
        · rfl
        · intro o _
          by_cases g : o = p
          · simp [g, hsk]
          · simp [g]
      · rw [filterMap_eq_single (ownersAt_sorted T n i) p (DAct.copy s.1 s.2 ((M p).src (noAt F p i).2) ((M p).dst (noAt T p i).2))]
        · by_cases hp : p ∈ ownersAt T n i
          · simp [hp, hsk]
          · simp [hp]
        · intro _
          simp [hsk]
        · intro o _ hop
          simp [hop]
    rw [hcop]
    refine ⟨⟨w1, ?_⟩, ?_⟩
    · split
      · exact ⟨trivial, trivial⟩
      · trivial
    · intro r hr hp hri
      obtain ⟨hmap, hpT⟩ := hTp r hr hp hri
      have htar : target op n F T val old i = val p i := by unfold target; rw [c1]
      rw [htar, ← hmap]
      by_cases hsk : skip p (noAt F p i).2 (noAt T p i).2 = true
      · rw [if_neg (by simp [hsk]), List.foldl_nil, ← hvalF hpin]
        obtain ⟨r', hr', ht', hri'⟩ := (mem_ownersAt h.goodF.task i p).1 hpin
        have e1 : (noAt F p i).2 = r'.mapNo := by rw [← ht']; exact noAt_mapNo h.goodF hr' hri'
        have := hm.skip r' hr' r hr (by rw [ht', hp]) (by rw [ht', ← e1, ← hmap]; exact hsk) i hri' hri
        rw [ht', ← e1, ← hmap] at this
        rw [this]
      · rw [if_pos ⟨hpT, by simpa using hsk⟩, List.foldl_cons, List.foldl_nil]
        simp only [stepAt, put_same]
        exact hvalF hpin
  · -- received from the only owner
    have hcop : ghostCopies (M p) (skip p) (val p) ((st.res n p).filter (opHas i)) = [] := by
      rw [hat, e]
      split <;> rfl
    have hfil : O.filter (opHas i) = l := by
      have e1 : O.filter (opHas i) = (O.filter (fun a => kindOf a = .recv q)).filter (opHas i) := by
        rw [List.filter_filter]
        apply List.filter_congr
        intro o ho
        cases hh : opHas i o
        · rfl
        · have := hOl o (List.mem_filter.2 ⟨ho, hh⟩)
          rw [e] at this
          split at this
          · rcases List.mem_singleton.1 this with rfl
            simp [kindOf]
          · cases this
      rw [e1, hO.recvs, List.filter_filter]
      rw [show (fun a => opHas i a && decide (kindOf a = .recv q)) = (fun a => decide (kindOf a = .recv q) && opHas i a) from
        funext (fun a => Bool.and_comm _ _), ← List.filter_filter, hat, List.filter_eq_self]
      intro o ho
      rw [e] at ho
      split at ho
      · rcases List.mem_singleton.1 ho with rfl
        simp [kindOf]
      · cases ho
    rw [hcop, List.append_nil, hfil, e]
    constructor
    · split
      · exact ⟨trivial, trivial⟩
      · trivial
    · intro r hr hp hri
      obtain ⟨hmap, hpT⟩ := hTp r hr hp hri
      have htar : target op n F T val old i = val q i := by unfold target; rw [c1]
      rw [htar, ← hmap, if_pos hpT]
      simp only [List.flatMap_cons, List.flatMap_nil, ghostOp, List.append_nil, List.foldl_cons, List.foldl_nil, stepAt, put_same]
      rfl
  · -- reduction
    have hcop : ghostCopies (M p) (skip p) (val p) ((st.res n p).filter (opHas i)) = [] := by
      rw [hat, e]; rfl
    have hfil : O.filter (opHas i) = l := by
      have e1 : O.filter (opHas i) = (O.filter isRedOp).filter (opHas i) := by
        rw [List.filter_filter]
        apply List.filter_congr
        intro o ho
        cases hh : opHas i o
        · rfl
        · have := hOl o (List.mem_filter.2 ⟨ho, hh⟩)
          rw [e] at this
          rcases List.mem_singleton.1 this with rfl
          rfl
      rw [e1, hO.reds, List.filter_filter]
      rw [show (fun a => opHas i a && isRedOp a) = (fun a => isRedOp a && opHas i a) from
        funext (fun a => Bool.and_comm _ _), ← List.filter_filter, hat, List.filter_eq_self]
      intro o ho
      rw [e] at ho
      rcases List.mem_singleton.1 ho with rfl
      rfl
    have hne' : ownersAt T n i ≠ [] := by
      have hmem : ROp.red s.1 s.2 (ownersAt F n i) (ownersAt T n i) (if p ∈ ownersAt F n i then some (noAt F p i) else none)
          (if p ∈ ownersAt T n i then some (noAt T p i) else none) ∈ O.filter (opHas i) := by rw [hfil, e]; simp
      exact hne _ (List.mem_filter.1 hmem).1 _ _ _ _ _ _ rfl
    rw [hcop, List.append_nil, hfil, e, List.flatMap_cons, List.flatMap_nil, List.append_nil]
    obtain ⟨w1, w2⟩ := walkAt_red (op := op) (i := i) (M p) val old p s.1 s.2 (ownersAt F n i) hne'
      (if p ∈ ownersAt F n i then some (noAt F p i) else none) (if p ∈ ownersAt T n i then some (noAt T p i) else none) (m0 p)
      (by intro hp; rw [if_pos hp]; exact hvalF hp) (by intro hp; rw [if_pos hp]; exact holdT hp)
    refine ⟨w1, ?_⟩
    intro r hr hp hri
    obtain ⟨hmap, hpT⟩ := hTp r hr hp hri
    rw [target_red op val old i c1, ← hmap, ← w2 hpT, if_pos hpT]
    rfl

end Laik.DE
