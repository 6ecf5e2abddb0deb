import Verif.Model.MpiFit
/-!
# Operations of a transition at one index, and their memory cells
-/

namespace Laik.Mp

open Laik.DE

variable {β : Type}

/-- What an operation of process `p` does at index `i`. -/
def OpAt (n : Nat) (F T : List TR) (p : Nat) (i : Int) : ROp → Prop
  | .loc _ _ a b => ownersAt F n i = [p] ∧ p ∈ ownersAt T n i ∧ a = noAt F p i ∧ b = noAt T p i
  | .send _ _ a _ => ownersAt F n i = [p] ∧ a = noAt F p i
  | .recv _ _ b q => ownersAt F n i = [q] ∧ q ≠ p ∧ p ∈ ownersAt T n i ∧ b = noAt T p i
  | .red _ _ ins outs a b => ins = ownersAt F n i ∧ outs = ownersAt T n i ∧ ins.length ≠ 1 ∧
      a = (if p ∈ ins then some (noAt F p i) else none) ∧ b = (if p ∈ outs then some (noAt T p i) else none)

section
variable {n redOp : Nat} {F T : List TR} {p : Nat} {F' T' : List TR} {st : TSt}

theorem op_seg (h : TransOK n F T) (hc : Calculated n redOp F T p F' T' st) {o : ROp} (ho : o ∈ st.res n p) :
    ∃ s ∈ segsOf (cutsOf F T), ∃ l, specSeg n redOp p F T s.1 s.2 = some l ∧ o ∈ l ∧ opLo o = s.1 ∧ opHi o = s.2 := by
  obtain ⟨c1, c2⟩ := hc.segs h
  rw [c2] at ho
  obtain ⟨s, hs, ho⟩ := List.mem_flatMap.1 ho
  obtain ⟨l, el⟩ := c1 s hs
  rw [el, Option.getD_some] at ho
  obtain ⟨e1, e2⟩ := specSeg_lohi el o ho
  exact ⟨s, hs, l, el, ho, e1, e2⟩

theorem op_at (h : TransOK n F T) (hc : Calculated n redOp F T p F' T' st) {o : ROp} (ho : o ∈ st.res n p) {i : Int}
    (hi : opLo o ≤ i ∧ i < opHi o) : OpAt n F T p i o := by
  obtain ⟨s, hs, l, el, ho, e1, e2⟩ := op_seg h hc ho
  rw [e1, e2] at hi
  have oF : ownersAt F n i = ownersAt F n s.1 := owners_const_of (fun r hr => seg_has hs (Or.inl hr) hi)
  have oT : ownersAt T n i = ownersAt T n s.1 := owners_const_of (fun r hr => seg_has hs (Or.inr hr) hi)
  have nF : noAt F p i = noAt F p s.1 := noAt_const (fun r hr => seg_has hs (Or.inl hr) hi)
  have nT : noAt T p i = noAt T p s.1 := noAt_const (fun r hr => seg_has hs (Or.inr hr) hi)
  have ocase := specSeg_cases el
  rw [← oF, ← oT, ← nF, ← nT] at ocase
  rcases ocase with ⟨_, _, rfl⟩ | ⟨c1, e⟩ | ⟨q, hq, c1, e⟩ | ⟨c1, e⟩
  · cases ho
  · rw [e] at ho
    obtain ⟨t, ht, rfl⟩ := List.mem_map.1 ho
    by_cases c : t = p
    · subst c
      rw [if_pos rfl]
      exact ⟨c1, ht, rfl, rfl⟩
    · rw [if_neg c]
      exact ⟨c1, rfl⟩
  · rw [e] at ho
    split at ho
    · rename_i hp
      rcases List.mem_singleton.1 ho with rfl
      exact ⟨c1, hq, hp, rfl⟩
    · cases ho
  · rw [e] at ho
    rcases List.mem_singleton.1 ho with rfl
    exact ⟨rfl, rfl, c1, rfl, rfl⟩

theorem op_range (h : TransOK n F T) (hc : Calculated n redOp F T p F' T' st) {o : ROp} (ho : o ∈ st.res n p) :
    opLo o < opHi o ∧ (opHi o - opLo o).toNat < 2 ^ 32 := by
  obtain ⟨s, hs, l, el, ho, e1, e2⟩ := op_seg h hc ho
  rw [e1, e2]
  obtain ⟨h1, h2, h3, _⟩ := (segs_mem (cutsOf_sorted F T) s).1 hs
  have small : ∀ z ∈ cutsOf F T, -2 ^ 30 ≤ z ∧ z < 2 ^ 30 := by
    intro z hz
    obtain ⟨t, ht, hz⟩ := (mem_cutsOf F T _).1 hz
    have hsm : -2^30 ≤ t.box.lo.x ∧ t.box.lo.x < 2^30 ∧ -2^30 ≤ t.box.hi.x ∧ t.box.hi.x < 2^30 := by
      rcases ht with ht | ht
      · exact h.smallF t ht
      · exact h.smallT t ht
    omega
  have := small _ h1
  have := small _ h2
  omega

/-- Operation at an index which a process owns in the target. -/
theorem op_ex (h : TransOK n F T) (hc : Calculated n redOp F T p F' T' st) {i : Int} (hp : p ∈ ownersAt T n i) :
    ∃ o ∈ st.res n p, (opLo o ≤ i ∧ i < opHi o) ∧ rIsSend o = false := by
  obtain ⟨r, hr, hrp, hri⟩ := (mem_ownersAt h.goodT.task i p).1 hp
  obtain ⟨s, hs, hi⟩ := segs_cover (cutsOf_sorted F T) ((mem_cutsOf F T _).2 ⟨r, Or.inr hr, Or.inl rfl⟩)
    ((mem_cutsOf F T _).2 ⟨r, Or.inr hr, Or.inr rfl⟩) hri.1 hri.2
  obtain ⟨l, el⟩ := (hc.segs h).1 s hs
  have hat := ops_at h hc hs hi el
  have oT : ownersAt T n i = ownersAt T n s.1 := owners_const_of (fun r hr => seg_has hs (Or.inr hr) hi)
  have mem : ∀ o ∈ l, o ∈ st.res n p ∧ (opLo o ≤ i ∧ i < opHi o) := by
    intro o ho
    rw [← hat, List.mem_filter] at ho
    exact ⟨ho.1, by simpa [opHas] using ho.2⟩
  rw [oT] at hp
  rcases specSeg_cases el with ⟨_, c, _⟩ | ⟨c1, e⟩ | ⟨q, hq, c1, e⟩ | ⟨c1, e⟩
  · exact absurd hp c
  · have : ROp.loc s.1 s.2 (noAt F p s.1) (noAt T p s.1) ∈ l := by
      rw [e]
      exact List.mem_map.2 ⟨p, hp, by rw [if_pos rfl]⟩
    exact ⟨_, (mem _ this).1, (mem _ this).2, rfl⟩
  · rw [if_pos hp] at e
    have : ROp.recv s.1 s.2 (noAt T p s.1) q ∈ l := by rw [e]; exact List.mem_singleton.2 rfl
    exact ⟨_, (mem _ this).1, (mem _ this).2, rfl⟩
  · have : ROp.red s.1 s.2 (ownersAt F n s.1) (ownersAt T n s.1)
      (if p ∈ ownersAt F n s.1 then some (noAt F p s.1) else none) (if p ∈ ownersAt T n s.1 then some (noAt T p s.1) else none) ∈ l := by
      rw [e]; exact List.mem_singleton.2 rfl
    exact ⟨_, (mem _ this).1, (mem _ this).2, rfl⟩

/-- The operation gets no data from other processes. -/
def noGet : ROp → Bool
  | .loc _ _ _ _ => true
  | .send _ _ _ _ => true
  | _ => false

/-- Operations have no common index, or both get no data. -/
def NoCommon (o o' : ROp) : Prop := (∀ i, opHas i o = true → opHas i o' = true → False) ∨ (noGet o = true ∧ noGet o' = true)

theorem NoCommon.symm {o o' : ROp} (h : NoCommon o o') : NoCommon o' o := by
  rcases h with h | h
  · exact Or.inl (fun i h1 h2 => h i h2 h1)
  · exact Or.inr ⟨h.2, h.1⟩

theorem ops_sep (h : TransOK n F T) (hc : Calculated n redOp F T p F' T' st) : (st.res n p).Pairwise NoCommon := by
  obtain ⟨c1, c2⟩ := hc.segs h
  rw [c2, List.pairwise_flatMap]
  constructor
  · intro s hs
    obtain ⟨l, el⟩ := c1 s hs
    rw [el, Option.getD_some]
    rcases specSeg_cases el with ⟨_, c, rfl⟩ | ⟨c1, rfl⟩ | ⟨q, hq, c1, rfl⟩ | ⟨c1, rfl⟩
    · exact List.Pairwise.nil
    · rw [List.pairwise_map]
      apply List.pairwise_of_forall
      intro a b
      right
      constructor <;> split <;> rfl
    · split
      · exact List.pairwise_singleton _ _
      · exact List.Pairwise.nil
    · exact List.pairwise_singleton _ _
  · refine List.Pairwise.imp_of_mem ?_ (segs_sorted (cutsOf_sorted F T))
    intro s t hs ht hst o ho o' ho'
    obtain ⟨l, el⟩ := c1 s hs
    obtain ⟨l', el'⟩ := c1 t ht
    rw [el, Option.getD_some] at ho
    rw [el', Option.getD_some] at ho'
    obtain ⟨e1, e2⟩ := specSeg_lohi el o ho
    obtain ⟨e1', e2'⟩ := specSeg_lohi el' o' ho'
    left
    intro i hi hi'
    unfold opHas at hi hi'
    rw [decide_eq_true_eq] at hi hi'
    omega

end

/-! ### Memory -/

theorem adr_add {c : PCtx β} {m : Option (Nat × Int)} {x : Int} (h : ∃ m', m = some m' ∧ m'.2 ≤ x) (j : Nat) :
    c.adr m x + j * c.es = c.adr m (x + (j : Int)) := by
  obtain ⟨m', rfl, h⟩ := h
  unfold PCtx.adr
  simp only [Option.map_some, Option.getD_some]
  have : (x + (j : Int) - m'.2).toNat = (x - m'.2).toNat + j := by omega
  rw [this, Nat.add_mul]
  omega

theorem idxs_get {x y : Int} {j : Nat} {i : Int} (h : (idxs x y)[j]? = some i) : i = x + (j : Int) ∧ x ≤ i ∧ i < y := by
  have hm := (mem_idxs x y i).1 (List.mem_of_getElem? h)
  refine ⟨?_, hm⟩
  unfold idxs at h
  rw [List.getElem?_map] at h
  obtain ⟨a, ha, rfl⟩ := Option.map_eq_some_iff.1 h
  obtain ⟨hl, e⟩ := List.getElem?_eq_some_iff.1 ha
  rw [List.getElem_range] at e
  rw [e]

theorem idxs_at {x y i : Int} (h : x ≤ i ∧ i < y) : (idxs x y)[(i - x).toNat]? = some i := by
  unfold idxs
  rw [List.getElem?_map, List.getElem?_range (by omega), Option.map_some]
  congr 1
  omega

/-- The process takes part in the collective or group reduction if it is in the group. -/
theorem redK_in {c : PCtx β} {ins outs : List Nat} (h1 : ins.length = c.n → c.me ∈ ins)
    (h3 : transGroup c.n c.gs (groupId c.n c.gs ins) = ins) :
    c.env.isIn (c.redK ins outs) = true ↔ c.me ∈ ins := by
  unfold PCtx.redK
  by_cases cc : c.useReduce = true ∧ ins.length = c.n
  · rw [if_pos cc]
    have hm := h1 cc.2
    by_cases c1 : outs.length = c.n
    · rw [if_pos c1]; simp [CEnv.isIn, hm]
    · rw [if_neg c1]
      by_cases c2 : outs.length = 1
      · rw [if_pos c2]; simp [CEnv.isIn, hm]
      · rw [if_neg c2]; simp [CEnv.isIn, PCtx.env, h3]
  · rw [if_neg cc]; simp [CEnv.isIn, PCtx.env, h3]

theorem redK_out {c : PCtx β} {ins outs : List Nat} (h1 : outs.length = c.n → c.me ∈ outs)
    (h3 : transGroup c.n c.gs (groupId c.n c.gs outs) = outs) :
    c.env.isOut (c.redK ins outs) = true ↔ c.me ∈ outs := by
  unfold PCtx.redK
  by_cases cc : c.useReduce = true ∧ ins.length = c.n
  · rw [if_pos cc]
    by_cases c1 : outs.length = c.n
    · rw [if_pos c1]
      have hm := h1 c1
      simp [CEnv.isOut, hm]
    · rw [if_neg c1]
      by_cases c2 : outs.length = 1
      · rw [if_pos c2]
        obtain ⟨r, rfl⟩ := List.length_eq_one_iff.1 c2
        simp only [CEnv.isOut, PCtx.env, List.headD_cons, List.mem_singleton, Bool.or_eq_true, beq_iff_eq]
        omega
      · rw [if_neg c2]; simp [CEnv.isOut, PCtx.env, h3]
  · rw [if_neg cc]; simp [CEnv.isOut, PCtx.env, h3]

/-- What is known about the operations `O` of a process with its groups resolved. -/
structure OpOK (c : PCtx β) (F T : List TR) (O : List ROp) : Prop where
  good : GoodList c.n F ∧ GoodList c.n T
  at' : ∀ o ∈ O, ∀ i, opLo o ≤ i ∧ i < opHi o → OpAt c.n F T c.me i o
  range : ∀ o ∈ O, opLo o < opHi o
  sep : O.Pairwise NoCommon
  mapped : ∀ o ∈ O, c.Mapped o
  me : ∀ o ∈ O, c.me < c.n
  groups : ∀ o ∈ O, ∀ x y ins outs a b, o = .red x y ins outs a b →
    transGroup c.n c.gs (groupId c.n c.gs ins) = ins ∧ transGroup c.n c.gs (groupId c.n c.gs outs) = outs

theorem OpOK.nil (c : PCtx β) {F T : List TR} (h : GoodList c.n F ∧ GoodList c.n T) : OpOK c F T [] :=
  ⟨h, fun o ho => (by cases ho), fun o ho => (by cases ho), List.Pairwise.nil, fun o ho => (by cases ho), fun o ho => (by cases ho), fun o ho => (by cases ho)⟩

variable {c : PCtx β} {F T : List TR} {O : List ROp}

theorem OpOK.owners (h : OpOK c F T O) {o : ROp} (ho : o ∈ O) {x y : Int} {ins outs : List Nat} {a b : Option (Int × Int)} (e : o = .red x y ins outs a b) :
    (c.env.isIn (c.redK ins outs) = true ↔ c.me ∈ ins) ∧ (c.env.isOut (c.redK ins outs) = true ↔ c.me ∈ outs) ∧
    (ins.length = c.n → ins = List.range c.n) ∧ (outs.length = c.n → outs = List.range c.n) := by
  have hr := h.range o ho
  have ha := h.at' o ho (opLo o) ⟨Int.le_refl _, hr⟩
  have hme := h.me o ho
  obtain ⟨g1, g2⟩ := h.groups o ho _ _ _ _ _ _ e
  rw [e] at ha
  obtain ⟨e1, e2, _⟩ := ha
  have f1 : ins.length = c.n → ins = List.range c.n := by
    intro hl
    rw [e1] at hl ⊢
    exact ownersAt_full _ _ _ hl
  have f2 : outs.length = c.n → outs = List.range c.n := by
    intro hl
    rw [e2] at hl ⊢
    exact ownersAt_full _ _ _ hl
  exact ⟨redK_in (fun hl => by rw [f1 hl]; exact List.mem_range.2 hme) g1, redK_out (fun hl => by rw [f2 hl]; exact List.mem_range.2 hme) g2, f1, f2⟩

theorem cell_src (h : OpOK c F T O) {i : Int} (hp : c.me ∈ ownersAt F c.n i) : CellOf c.cells F T c.me i (c.cells.src (noAt F c.me i).2 i) := by
  obtain ⟨r, hr, e, hri⟩ := (mem_ownersAt h.good.1.task i c.me).1 hp
  exact Or.inl ⟨r, hr, e, hri, by rw [← e, noAt_mapNo h.good.1 hr hri]⟩

theorem cell_dst (h : OpOK c F T O) {i : Int} (hp : c.me ∈ ownersAt T c.n i) : CellOf c.cells F T c.me i (c.cells.dst (noAt T c.me i).2 i) := by
  obtain ⟨r, hr, e, hri⟩ := (mem_ownersAt h.good.2.task i c.me).1 hp
  exact Or.inr ⟨r, hr, e, hri, by rw [← e, noAt_mapNo h.good.2 hr hri]⟩

/-- Cells read by the action of an operation. -/
theorem OpOK.src (h : OpOK c F T O) {o : ROp} (ho : o ∈ O) {f : FIt Int} (hf : c.fit o = some f) (hin : c.env.isIn f.key = true) :
    ∀ j i, f.idx[j]? = some i → (opLo o ≤ i ∧ i < opHi o) ∧ c.me ∈ ownersAt F c.n i ∧ f.src + j * c.es = c.cells.src (noAt F c.me i).2 i := by
  intro j i hj
  have hm := h.mapped o ho
  have hat := h.at' o ho i
  cases o with
  | loc => cases hf
  | recv x y no q => cases hf; cases hin
  | send x y no t =>
    cases hf
    obtain ⟨rfl, hr⟩ := idxs_get hj
    obtain ⟨e1, e2⟩ := hat hr
    refine ⟨hr, by rw [e1]; simp, ?_⟩
    rw [adr_add hm j, e2]
    rfl
  | red x y ins outs a b =>
    cases hf
    obtain ⟨rfl, hr⟩ := idxs_get hj
    obtain ⟨e1, e2, _, ea, eb⟩ := hat hr
    have hin' := (h.owners ho rfl).1.1 hin
    rw [if_pos hin'] at ea
    refine ⟨hr, by rw [← e1]; exact hin', ?_⟩
    rw [ea]
    simp only [Option.map_some, Option.getD_some]
    rw [adr_add (hm.1 _ ea) j]
    rfl

/-- Cells written by the action of an operation. -/
theorem OpOK.dst (h : OpOK c F T O) {o : ROp} (ho : o ∈ O) {f : FIt Int} (hf : c.fit o = some f) (hin : c.env.isOut f.key = true) :
    noGet o = false ∧ ∀ j i, f.idx[j]? = some i → (opLo o ≤ i ∧ i < opHi o) ∧ c.me ∈ ownersAt T c.n i ∧ f.dst + j * c.es = c.cells.dst (noAt T c.me i).2 i := by
  have hm := h.mapped o ho
  have hat := h.at' o ho
  cases o with
  | loc => cases hf
  | send x y no t => cases hf; cases hin
  | recv x y no q =>
    cases hf
    refine ⟨rfl, fun j i hj => ?_⟩
    obtain ⟨rfl, hr⟩ := idxs_get hj
    obtain ⟨e1, _, e2, e3⟩ := hat _ hr
    refine ⟨hr, e2, ?_⟩
    rw [adr_add hm j, e3]
    rfl
  | red x y ins outs a b =>
    cases hf
    refine ⟨rfl, fun j i hj => ?_⟩
    obtain ⟨rfl, hr⟩ := idxs_get hj
    obtain ⟨e1, e2, _, ea, eb⟩ := hat _ hr
    have hin' := (h.owners ho rfl).2.1.1 hin
    rw [if_pos hin'] at eb
    refine ⟨hr, by rw [← e2]; exact hin', ?_⟩
    rw [eb]
    simp only [Option.map_some, Option.getD_some]
    rw [adr_add (hm.2 _ eb) j]
    rfl

/-- Byte of an element. -/
theorem byte_elem {a es len x : Nat} (h1 : a ≤ x) (h2 : x < a + len * es) : ∃ j < len, a + j * es ≤ x ∧ x < a + j * es + es := by
  have h0 : 0 < es := by
    rcases Nat.eq_zero_or_pos es with h0 | h0
    · rw [h0] at h2; omega
    · exact h0
  refine ⟨(x - a) / es, (Nat.div_lt_iff_lt_mul h0).2 (by omega), ?_, ?_⟩
  · have := Nat.div_mul_le_self (x - a) es; omega
  · have := Nat.lt_div_mul_add (a := x - a) h0; omega

/-- Memory of the container at process `c.me`. -/
def PCtx.InUse (c : PCtx β) (F T : List TR) (x : Nat) : Prop := ∃ i a, CellOf c.cells F T c.me i a ∧ a ≤ x ∧ x < a + c.es

theorem OpOK.rd_cell (h : OpOK c F T O) {o : ROp} (ho : o ∈ O) {f : FIt Int} (hf : c.fit o = some f) {x : Nat} (hx : rd c.env (f.body (β := β)) x) :
    ∃ i a, opHas i o = true ∧ CellOf c.cells F T c.me i a ∧ a ≤ x ∧ x < a + c.es := by
  obtain ⟨h1, h2, h3⟩ := hx
  obtain ⟨j, hj, h4, h5⟩ := byte_elem h2 h3
  obtain ⟨e1, e2, e3⟩ := h.src ho hf h1 j _ (List.getElem?_eq_getElem hj)
  refine ⟨_, _, by simpa [opHas] using e1, cell_src h e2, ?_⟩
  rw [← e3]
  exact ⟨h4, h5⟩

theorem OpOK.wr_cell (h : OpOK c F T O) {o : ROp} (ho : o ∈ O) {f : FIt Int} (hf : c.fit o = some f) {x : Nat} (hx : wr c.env (f.body (β := β)) x = true) :
    noGet o = false ∧ ∃ i a, opHas i o = true ∧ CellOf c.cells F T c.me i a ∧ a ≤ x ∧ x < a + c.es := by
  have hx' : (c.env.isOut f.key && decide (f.dst ≤ x ∧ x < f.dst + f.idx.length * c.es)) = true := hx
  rw [Bool.and_eq_true, decide_eq_true_eq] at hx'
  obtain ⟨h1, h2, h3⟩ := hx'
  obtain ⟨j, hj, h4, h5⟩ := byte_elem h2 h3
  obtain ⟨e0, hd⟩ := h.dst ho hf h1
  obtain ⟨e1, e2, e3⟩ := hd j _ (List.getElem?_eq_getElem hj)
  refine ⟨e0, _, _, by simpa [opHas] using e1, cell_dst h e2, ?_⟩
  rw [← e3]
  exact ⟨h4, h5⟩

/-- Elements with different indexes do not overlap, and elements with the same
index are the same or do not overlap. -/
def PCtx.SepB (c : PCtx β) (F T : List TR) : Prop := ∀ i j a b, CellOf c.cells F T c.me i a → CellOf c.cells F T c.me j b →
  (i = j ∧ a = b) ∨ a + c.es ≤ b ∨ b + c.es ≤ a

theorem mem_rOrder {O : List ROp} {o : ROp} (h : o ∈ rOrder O) : o ∈ O := by
  unfold rOrder at h
  simp only [List.mem_append, List.mem_filter] at h
  tauto

theorem rOrder_perm (O : List ROp) (c : PCtx β) : ((rOrder O).filterMap c.fit).Perm (O.filterMap c.fit) := by
  unfold rOrder
  rw [List.filterMap_append, List.filterMap_append]
  induction O with
  | nil => exact List.Perm.refl _
  | cons o O ih =>
    cases o with
    | loc => exact ih
    | red x y ins outs a b => exact List.Perm.cons _ ih
    | send x y no t =>
      refine List.Perm.trans ?_ (List.Perm.cons _ ih)
      show ((O.filter rIsRed).filterMap c.fit ++ _ :: (O.filter rIsSend).filterMap c.fit ++ _).Perm _
      rw [List.append_assoc, List.append_assoc]
      exact List.perm_middle
    | recv x y no q =>
      refine List.Perm.trans ?_ (List.Perm.cons _ ih)
      exact List.perm_middle

theorem OpOK.indep (h : OpOK c F T O) (hs : c.SepB F T) : (c.fits O).Pairwise (fun a b => MI c.env (a.body (β := β)) b.body) := by
  unfold PCtx.fits
  have hsym : ∀ {a b : FIt Int}, MI c.env (a.body (β := β)) b.body → MI c.env (b.body (β := β)) a.body := fun h => h.symm
  rw [(rOrder_perm O c).pairwise_iff hsym, List.pairwise_filterMap]
  refine h.sep.imp_of_mem ?_
  intro o o' ho ho' hn f hf f' hf'
  have no : ∀ x i a i' a', opHas i o = true → opHas i' o' = true → CellOf c.cells F T c.me i a → CellOf c.cells F T c.me i' a' →
      a ≤ x → x < a + c.es → a' ≤ x → x < a' + c.es → noGet o = true ∧ noGet o' = true := by
    intro x i a i' a' h1 h2 h3 h4 h5 h6 h7 h8
    rcases hn with hn | hn
    · exfalso
      rcases hs i i' a a' h3 h4 with ⟨rfl, _⟩ | hh | hh
      · exact hn i h1 h2
      · omega
      · omega
    · exact hn
  refine ⟨?_, ?_⟩
  · intro x hx
    obtain ⟨g, i, a, h1, h2, h3, h4⟩ := h.wr_cell ho hf hx
    refine ⟨?_, ?_⟩
    · intro hx'
      obtain ⟨i', a', h1', h2', h3', h4'⟩ := h.rd_cell ho' hf' hx'
      have := no x i a i' a' h1 h1' h2 h2' h3 h4 h3' h4'
      rw [g] at this
      cases this.1
    · rw [Bool.eq_false_iff]
      intro hx'
      obtain ⟨_, i', a', h1', h2', h3', h4'⟩ := h.wr_cell ho' hf' hx'
      have := no x i a i' a' h1 h1' h2 h2' h3 h4 h3' h4'
      rw [g] at this
      cases this.1
  · intro x hx hx'
    obtain ⟨g, i', a', h1', h2', h3', h4'⟩ := h.wr_cell ho' hf' hx
    obtain ⟨i, a, h1, h2, h3, h4⟩ := h.rd_cell ho hf hx'
    have := no x i a i' a' h1 h1' h2 h2' h3 h4 h3' h4'
    rw [g] at this
    cases this.2

theorem OpOK.mem_fits {O : List ROp} {f : FIt Int} : f ∈ c.fits O ↔ ∃ o ∈ O, c.fit o = some f := by
  unfold PCtx.fits
  rw [(rOrder_perm O c).mem_iff, List.mem_filterMap]

theorem OpOK.used (h : OpOK c F T O) {x : Nat} (hx : c.used (c.fits O) x) : c.InUse F T x := by
  obtain ⟨f, hf, hx⟩ := hx
  obtain ⟨o, ho, e⟩ := OpOK.mem_fits.1 hf
  rcases hx with hx | hx
  · obtain ⟨i, a, _, h1, h2, h3⟩ := h.rd_cell ho e hx
    exact ⟨i, a, h1, h2, h3⟩
  · obtain ⟨_, i, a, _, h1, h2, h3⟩ := h.wr_cell ho e hx
    exact ⟨i, a, h1, h2, h3⟩

theorem OpOK.pos (h : OpOK c F T O) : ∀ f ∈ c.fits O, f.idx ≠ [] := by
  intro f hf
  obtain ⟨o, ho, e⟩ := OpOK.mem_fits.1 hf
  have hr := h.range o ho
  have : f.idx.length = (opHi o - opLo o).toNat := by
    cases o with
    | loc => cases e
    | send => cases e; exact idxs_length _ _
    | recv => cases e; exact idxs_length _ _
    | red => cases e; exact idxs_length _ _
  intro hn
  rw [hn] at this
  simp at this
  omega

end Laik.Mp
