import Verif.Model.Tcp2Order
/-!
# Values after a switch over the TCP2 backend
-/

namespace Laik.DE

/-! ### Operations of a segment -/

theorem specSeg_cases {n redOp p : Nat} {F T : List TR} {x y : Int} {l : List ROp} (h : specSeg n redOp p F T x y = some l) :
    (p ∉ ownersAt F n x ∧ p ∉ ownersAt T n x ∧ l = []) ∨
    (ownersAt F n x = [p] ∧ l = (ownersAt T n x).map (fun o => if o = p then .loc x y (noAt F p x) (noAt T p x)
      else .send x y (noAt F p x) o)) ∨
    (∃ q, q ≠ p ∧ ownersAt F n x = [q] ∧ l = if p ∈ ownersAt T n x then [.recv x y (noAt T p x) q] else []) ∨
    ((ownersAt F n x).length ≠ 1 ∧ l = [.red x y (ownersAt F n x) (ownersAt T n x)
      (if p ∈ ownersAt F n x then some (noAt F p x) else none) (if p ∈ ownersAt T n x then some (noAt T p x) else none)]) := by
  unfold specSeg at h
  simp only [] at h
  split at h
  · rename_i c
    simp only [Option.some.injEq] at h
    exact Or.inl ⟨c.1, c.2, h.symm⟩
  · split at h
    · rename_i c
      split at h
      · split at h
        · rename_i e
          simp only [Option.some.injEq] at h
          exact Or.inr (Or.inl ⟨e, h.symm⟩)
        · rename_i e
          simp only [Option.some.injEq] at h
          have hs := eq_single_of_length c
          refine Or.inr (Or.inr (Or.inl ⟨(ownersAt F n x).headD 0, ?_, hs, h.symm⟩))
          intro hp
          rw [hp] at hs
          exact e hs
      · cases h
    · rename_i c
      split at h
      · cases h
      · simp only [Option.some.injEq] at h
        exact Or.inr (Or.inr (Or.inr ⟨c, h.symm⟩))

/-- Range of an operation. -/
def opLo : ROp → Int
  | .loc x _ _ _ => x
  | .send x _ _ _ => x
  | .recv x _ _ _ => x
  | .red x _ _ _ _ _ => x

def opHi : ROp → Int
  | .loc _ y _ _ => y
  | .send _ y _ _ => y
  | .recv _ y _ _ => y
  | .red _ y _ _ _ _ => y

def opHas (i : Int) (op : ROp) : Bool := decide (opLo op ≤ i ∧ i < opHi op)

theorem specSeg_lohi {n redOp p : Nat} {F T : List TR} {x y : Int} {l : List ROp} (h : specSeg n redOp p F T x y = some l) :
    ∀ op ∈ l, opLo op = x ∧ opHi op = y := by
  intro op ho
  rcases specSeg_cases h with ⟨_, _, rfl⟩ | ⟨_, rfl⟩ | ⟨q, _, _, rfl⟩ | ⟨_, rfl⟩
  · cases ho
  · obtain ⟨o, _, rfl⟩ := List.mem_map.1 ho
    split <;> exact ⟨rfl, rfl⟩
  · split at ho
    · rcases List.mem_singleton.1 ho with rfl; exact ⟨rfl, rfl⟩
    · cases ho
  · rcases List.mem_singleton.1 ho with rfl; exact ⟨rfl, rfl⟩

theorem owners_lt {L : List TR} {n : Nat} {x : Int} {p : Nat} (h : p ∈ ownersAt L n x) : p < n := by
  unfold ownersAt at h
  rw [List.mem_filter, List.mem_range] at h
  exact h.1

/-! ### Operations of all processes -/

/-- Operations of process `p`; none for numbers outside of the group. -/
def opsOf (n : Nat) (st : Nat → TSt) (p : Nat) : List ROp := if p < n then (st p).res n p else []

theorem opsOK_of_calculated {n redOp : Nat} {F T : List TR} (h : TransOK n F T) (Fp Tp : Nat → List TR) (st : Nat → TSt)
    (hc : ∀ p < n, Calculated n redOp F T p (Fp p) (Tp p) (st p)) : OpsOK (opsOf n st) := by
  have seg : ∀ p, ∀ op ∈ opsOf n st p, p < n ∧ ∃ s ∈ segsOf (cutsOf F T), ∃ l, specSeg n redOp p F T s.1 s.2 = some l ∧ op ∈ l := by
    intro p op ho
    unfold opsOf at ho
    split at ho
    · rename_i hp
      obtain ⟨c1, c2⟩ := (hc p hp).segs h
      rw [c2] at ho
      obtain ⟨s, hs, ho⟩ := List.mem_flatMap.1 ho
      obtain ⟨l, e⟩ := c1 s hs
      rw [e] at ho
      exact ⟨hp, s, hs, l, e, ho⟩
    · cases ho
  have nored : ∀ p q, ¬ q < n → ((opsOf n st p).filterMap rReds).filter (fun r => r.involves q) = [] := by
    intro p q hq
    rw [List.filter_eq_nil_iff]
    intro r hr
    obtain ⟨op, ho, e⟩ := List.mem_filterMap.1 hr
    obtain ⟨_, s, _, l, el, hl⟩ := seg p op ho
    have : r ∈ l.filterMap rReds := List.mem_filterMap.2 ⟨op, hl, e⟩
    rw [specSeg_reds el] at this
    split at this
    · rcases List.mem_singleton.1 this with rfl
      simp only [RedSpec.involves, decide_eq_true_eq, not_or]
      exact ⟨fun h => hq (owners_lt h), fun h => hq (owners_lt h)⟩
    · cases this
  refine ⟨?_, ?_, ?_, ?_, ?_, ?_⟩
  · intro p q hpq
    by_cases hp : p < n
    · by_cases hq : q < n
      · have := C17_messages_match_partial h hpq (hc p hp) (hc q hq)
        rw [sendsTo_res n p, recvsFrom_res n q] at this
        unfold opsOf
        rw [if_pos hp, if_pos hq]
        exact this
      · have e : (opsOf n st p).filterMap (rSends q) = [] := by
          rw [List.filterMap_eq_nil_iff]
          intro op ho
          obtain ⟨_, s, _, l, el, hl⟩ := seg p op ho
          have e1 := specSeg_sends hpq el
          rw [if_neg (fun h => hq (owners_lt h.2)), List.filterMap_eq_nil_iff] at e1
          exact e1 op hl
        rw [e]
        unfold opsOf
        rw [if_neg hq]; rfl
    · have e : (opsOf n st q).filterMap (rRecvs p) = [] := by
        rw [List.filterMap_eq_nil_iff]
        intro op ho
        obtain ⟨_, s, _, l, el, hl⟩ := seg q op ho
        have e1 := specSeg_recvs hpq el
        rw [if_neg (fun h => hp (owners_lt (L := F) (x := s.1) (by rw [h.1]; simp))), List.filterMap_eq_nil_iff] at e1
        exact e1 op hl
      rw [e]
      unfold opsOf
      rw [if_neg hp]; rfl
  · intro p q
    by_cases hp : p < n
    · by_cases hq : q < n
      · have := (C17_reductions_match_partial h (hc p hp) (hc q hq)).1
        rw [redsOf_res n p, redsOf_res n q] at this
        unfold opsOf
        rw [if_pos hp, if_pos hq]
        exact this
      · rw [nored p q hq]
        unfold opsOf
        rw [if_neg hq]; rfl
    · rw [nored q p hp]
      unfold opsOf
      rw [if_neg hp]; rfl
  · intro p
    unfold opsOf
    split
    · rename_i hp
      obtain ⟨c1, c2⟩ := (hc p hp).segs h
      rw [c2, List.filterMap_flatMap, List.pairwise_flatMap]
      have one : ∀ s ∈ segsOf (cutsOf F T), ∀ r ∈ ((specSeg n redOp p F T s.1 s.2).getD []).filterMap rReds, r.x = s.1 := by
        intro s hs r hr
        obtain ⟨l, e⟩ := c1 s hs
        rw [e, Option.getD_some, specSeg_reds e] at hr
        split at hr
        · rcases List.mem_singleton.1 hr with rfl; rfl
        · cases hr
      constructor
      · intro s hs
        obtain ⟨l, e⟩ := c1 s hs
        rw [e, Option.getD_some, specSeg_reds e]
        split
        · exact List.pairwise_singleton _ _
        · exact List.Pairwise.nil
      · refine List.Pairwise.imp_of_mem ?_ (segs_sorted (cutsOf_sorted F T))
        intro s t hs ht hst r hr r' hr'
        rw [one s hs r hr, one t ht r' hr']
        have := ((segs_mem (cutsOf_sorted F T) s).1 hs).2.2.1
        omega
    · exact List.Pairwise.nil
  · intro p op ho
    obtain ⟨_, s, _, l, el, hl⟩ := seg p op ho
    rcases specSeg_cases el with ⟨_, _, rfl⟩ | ⟨_, rfl⟩ | ⟨q, hq, _, rfl⟩ | ⟨_, rfl⟩
    · cases hl
    · obtain ⟨o, _, rfl⟩ := List.mem_map.1 hl
      split
      · simp [kindOf]
      · rename_i c
        simp [kindOf, c]
    · split at hl
      · rcases List.mem_singleton.1 hl with rfl
        simp [kindOf, hq]
      · cases hl
    · rcases List.mem_singleton.1 hl with rfl
      simp [kindOf]
  · intro p r hr
    obtain ⟨op, ho, e⟩ := List.mem_filterMap.1 hr
    obtain ⟨_, s, hs, l, el, hl⟩ := seg p op ho
    have : r ∈ l.filterMap rReds := List.mem_filterMap.2 ⟨op, hl, e⟩
    rw [specSeg_reds el] at this
    split at this
    · rcases List.mem_singleton.1 this with rfl
      have hcut := ((segs_mem (cutsOf_sorted F T) s).1 hs).1
      obtain ⟨t, ht, hz⟩ := (mem_cutsOf F T _).1 hcut
      have hsm : -2^30 ≤ t.box.lo.x ∧ t.box.lo.x < 2^30 ∧ -2^30 ≤ t.box.hi.x ∧ t.box.hi.x < 2^30 := by
        rcases ht with ht | ht
        · exact h.smallF t ht
        · exact h.smallT t ht
      simp only []
      omega
    · cases this
  · intro p r hr
    obtain ⟨op, ho, e⟩ := List.mem_filterMap.1 hr
    obtain ⟨_, s, hs, l, el, hl⟩ := seg p op ho
    have : r ∈ l.filterMap rReds := List.mem_filterMap.2 ⟨op, hl, e⟩
    rw [specSeg_reds el] at this
    split at this
    · rcases List.mem_singleton.1 this with rfl
      exact ⟨ownersAt_sorted F n s.1, ownersAt_sorted T n s.1⟩
    · cases this

/-- Operations including an index are those of its segment. -/
theorem ops_at {n redOp : Nat} {F T : List TR} (h : TransOK n F T) {p : Nat} {F' T' : List TR} {st : TSt}
    (hc : Calculated n redOp F T p F' T' st) {s : Int × Int} (hs : s ∈ segsOf (cutsOf F T)) {i : Int} (hi : s.1 ≤ i ∧ i < s.2)
    {l : List ROp} (el : specSeg n redOp p F T s.1 s.2 = some l) : (st.res n p).filter (opHas i) = l := by
  obtain ⟨c1, c2⟩ := hc.segs h
  rw [c2, List.filter_flatMap, flatMap_one _ (segs_nodup (cutsOf_sorted F T)) hs]
  · rw [el, Option.getD_some, List.filter_eq_self]
    intro op ho
    obtain ⟨e1, e2⟩ := specSeg_lohi el op ho
    unfold opHas
    rw [e1, e2]
    exact decide_eq_true hi
  · intro s' hs' hne
    obtain ⟨l', el'⟩ := c1 s' hs'
    rw [el', Option.getD_some, List.filter_eq_nil_iff]
    intro op ho hh
    obtain ⟨e1, e2⟩ := specSeg_lohi el' op ho
    unfold opHas at hh
    rw [e1, e2, decide_eq_true_eq] at hh
    apply hne
    have a1 := (segs_mem (cutsOf_sorted F T) s).1 hs
    have a2 := (segs_mem (cutsOf_sorted F T) s').1 hs'
    have b1 := a1.2.2.2 s'.1 a2.1
    have b2 := a1.2.2.2 s'.2 a2.2.1
    have b3 := a2.2.2.2 s.1 a1.1
    have b4 := a2.2.2.2 s.2 a1.2.1
    ext <;> omega

theorem noAt_const {L : List TR} {p : Nat} {x i : Int} (h : ∀ r ∈ L, r.has i ↔ r.has x) : noAt L p i = noAt L p x := by
  unfold noAt
  have e : (numbered L).find? (fun r => decide (r.1.task = p ∧ r.1.has i)) =
      (numbered L).find? (fun r => decide (r.1.task = p ∧ r.1.has x)) := by
    have : ∀ l : List (TR × Nat), (∀ q ∈ l, q.1 ∈ L) → l.find? (fun r => decide (r.1.task = p ∧ r.1.has i)) =
        l.find? (fun r => decide (r.1.task = p ∧ r.1.has x)) := by
      intro l hl
      induction l with
      | nil => rfl
      | cons q l ih =>
        have hq := h q.1 (hl q List.mem_cons_self)
        rw [List.find?_cons, List.find?_cons, ih (fun r hr => hl r (List.mem_cons_of_mem _ hr))]
        have : decide (q.1.task = p ∧ q.1.has i) = decide (q.1.task = p ∧ q.1.has x) := by
          rw [decide_eq_decide, hq]
        rw [this]
    apply this
    intro q hq
    have := List.mem_map_of_mem (f := (·.1)) hq
    rwa [numbered_fst] at this
  rw [e]

/-- The mapping used for an index is that of the range including it. -/
theorem noAt_mapNo {n : Nat} {L : List TR} (hL : GoodList n L) {r : TR} (hr : r ∈ L) {i : Int} (hi : r.has i) :
    (noAt L r.task i).2 = r.mapNo := by
  unfold noAt
  have hr' := hr
  rw [← numbered_fst L] at hr'
  obtain ⟨q, hq, e⟩ := List.mem_map.1 hr'
  cases ef : (numbered L).find? (fun t => decide (t.1.task = r.task ∧ t.1.has i)) with
  | none =>
    have := List.find?_eq_none.1 ef q hq
    simp only [decide_eq_true_eq] at this
    exact absurd ⟨by rw [e], by rw [e]; exact hi⟩ this
  | some t =>
    have ht := List.find?_some ef
    have hm := List.mem_of_find?_eq_some ef
    simp only [decide_eq_true_eq] at ht
    simp only []
    by_cases c : t = q
    · rw [c, e]
    · have := hL.num.dis' hm hq c (by rw [ht.1, e])
      have h1 := ht.2
      rw [e] at this
      unfold TR.has at h1 hi
      omega

end Laik.DE
