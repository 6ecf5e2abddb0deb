import Verif.Model.MpiSwitch
/-!
# When the MPI backend can do a switch
-/

namespace Laik.Mp

open Laik.DE

variable {β : Type}

theorem use3_iff (ins : List Nat) : use3 ins = true ↔ 8 < ins.length := by
  unfold use3
  rw [decide_eq_true_eq]
  constructor
  · intro h
    by_contra hc
    have : ins.length * ins.length ≤ 8 * ins.length := Nat.mul_le_mul_right _ (by omega)
    omega
  · intro h
    have : 9 * ins.length ≤ ins.length * ins.length := Nat.mul_le_mul_right _ h
    omega

/-- The asserts in the split of a group reduction hold. -/
def PCtx.redOK (c : PCtx β) (ins outs : List Nat) : Prop := 8 < ins.length → outs ≠ [] ∧ (outs.head? = some c.me → ins.length ≤ 32)

theorem red_some (c : PCtx β) (B r s d n : Nat) (ins outs : List Nat) :
    (∃ x, (if ins.length * ins.length > 4 * (ins.length + ins.length) then c.red3 B r s d n ins outs else c.red2 B r s d n ins outs) = some x) ↔ c.redOK ins outs := by
  have hu := use3_iff ins
  unfold use3 at hu
  rw [decide_eq_true_eq] at hu
  unfold PCtx.redOK
  by_cases c1 : ins.length * ins.length > 4 * (ins.length + ins.length)
  · rw [if_pos c1]
    have h8 := hu.1 (by omega)
    unfold PCtx.red3
    cases outs with
    | nil => simp [h8]
    | cons t os =>
      simp only
      by_cases c2 : c.me = t
      · rw [if_neg (by simpa using c2)]
        by_cases c3 : ins.length ≤ 32
        · rw [if_pos c3]; simp [c3]
        · rw [if_neg c3]
          constructor
          · rintro ⟨x, h⟩; cases h
          · intro h; exact absurd ((h h8).2 (by rw [c2]; rfl)) c3
      · rw [if_pos c2]
        refine ⟨fun _ _ => ⟨by simp, fun e => ?_⟩, fun _ => ⟨_, rfl⟩⟩
        rw [List.head?_cons] at e
        exact absurd (Option.some.inj e).symm c2
  · rw [if_neg c1]
    have h8 : ¬ 8 < ins.length := fun h => c1 (by have := hu.2 h; omega)
    refine ⟨fun _ h => absurd h h8, fun _ => ?_⟩
    unfold PCtx.red2
    simp only
    split
    · rw [if_pos (by omega)]; exact ⟨_, rfl⟩
    · exact ⟨_, rfl⟩

theorem splitGo_some (c : PCtx β) (l : List (CAct β)) : ∀ B, (∃ v, c.splitGo B l = some v) ↔
    ∀ a ∈ l, ∀ i o op s d n, a.body = .comm (.gred i o op) s d n → c.redOK (transGroup c.n c.gs i) (transGroup c.n c.gs o) := by
  induction l with
  | nil => intro B; exact ⟨fun _ a ha => (by cases ha), fun _ => ⟨[], rfl⟩⟩
  | cons a l ih =>
    intro B
    rw [List.forall_mem_cons]
    cases hg : CAct.isGred a with
    | false =>
      rw [splitGo_other c B l hg, ← ih B]
      unfold CAct.isGred at hg
      constructor
      · rintro ⟨v, hv⟩
        obtain ⟨w, hw, _⟩ := Option.map_eq_some_iff.1 hv
        refine ⟨fun i o op s d n hb => ?_, w, hw⟩
        rw [hb] at hg; cases hg
      · rintro ⟨_, w, hw⟩
        exact ⟨_, by rw [hw]; rfl⟩
    | true =>
      unfold CAct.isGred at hg
      split at hg
      · rename_i i o op s d n hb
        rw [splitGo_gred c B l hb]
        constructor
        · rintro ⟨v, hv⟩
          obtain ⟨x, hx, hv⟩ := Option.bind_eq_some_iff.1 hv
          obtain ⟨w, hw, _⟩ := Option.map_eq_some_iff.1 hv
          refine ⟨fun i' o' op' s' d' n' hb' => ?_, (ih _).1 ⟨w, hw⟩⟩
          rw [hb] at hb'
          cases hb'
          exact (red_some c B _ _ _ _ _ _).1 ⟨x, hx⟩
        · rintro ⟨h1, h2⟩
          obtain ⟨x, hx⟩ := (red_some c B a.round s d n _ _).2 (h1 _ _ _ _ _ _ hb)
          obtain ⟨w, hw⟩ := (ih (B + x.2)).2 h2
          exact ⟨x.1 ++ w, by rw [hx, Option.bind_some, hw]; rfl⟩
      · cases hg

theorem splitReduce_some (c : PCtx β) (l : List (CAct β)) (B : Nat) : (∃ v, c.splitReduce B l = some v) ↔
    ∀ a ∈ l, ∀ i o op s d n, a.body = .comm (.gred i o op) s d n → c.redOK (transGroup c.n c.gs i) (transGroup c.n c.gs o) := by
  unfold PCtx.splitReduce
  split
  · exact splitGo_some c l B
  · rename_i hc
    refine ⟨fun _ a ha i o op s d n hb => ?_, fun _ => ⟨l, rfl⟩⟩
    exact absurd (List.any_eq_true.2 ⟨a, ha, by unfold CAct.isGred; rw [hb]⟩) hc

theorem combineAt_some (c : PCtx β) (B : Nat) {l : List (CAct β)} (hp : PosC l) : ∃ l1, c.combineAt B l = some l1 := by
  unfold PCtx.combineAt
  cases h : combine c.env l with
  | none => exact absurd h (C22_no_abort c.env l hp)
  | some r => exact ⟨_, rfl⟩

theorem sortRounds_some {α : Type} (l : List (Act α)) : ∃ s r, IsPtrSort cmpRounds l s ∧ sortSeq l s = some r := by
  have le : ∀ a b : Act α × Nat, cmpRounds a b ≤ 0 ↔ a.1.round < b.1.round ∨ (a.1.round = b.1.round ∧ a.2 ≤ b.2) := by
    intro a b
    unfold cmpRounds
    split <;> omega
  have h : IsPtrSort cmpRounds l (l.zipIdx.mergeSort (fun a b => decide (cmpRounds a b ≤ 0))) := by
    refine ⟨List.mergeSort_perm _ _, ?_⟩
    have := List.pairwise_mergeSort (le := fun a b : Act α × Nat => decide (cmpRounds a b ≤ 0))
      (fun a b c h1 h2 => by
        simp only [decide_eq_true_eq] at *
        rw [le] at *
        omega)
      (fun a b => by
        simp only [Bool.or_eq_true, decide_eq_true_eq]
        rw [le, le]
        omega) l.zipIdx
    exact this.imp (fun h => by simpa using h)
  obtain ⟨r, hr, _⟩ := C21_sort_rounds_partial l _ h
  exact ⟨_, r, h, hr⟩

theorem sort2_some {α : Type} (me : Nat) (l : List (Act α)) : ∃ s r, IsPtrSort (cmp2phase me) l s ∧ sortSeq l s = some r := by
  obtain ⟨s, hs⟩ := (C21_sort_unique me l).1
  obtain ⟨r, hr, _⟩ := C21_sort_2phases_partial me l s hs
  exact ⟨s, r, hs, hr⟩

/-- Preparation succeeds if and only if no assert on groups fails. -/
theorem prepared_iff {ι : Type} {c : PCtx β} {ops : List TOp} {l : List (CAct β)} {F : List (FIt ι)} (hl : c.flat ops = some l)
    (hF : (if c.useReduce then l.map c.allRed else l) = F.map FIt.act) (hpos : ∀ f ∈ F, f.idx ≠ []) {inUse : Nat → Prop} {N : Nat} (hN : ∀ x, inUse x → x < N) :
    (∃ B1 B2 B3 prog, c.Prepared inUse B1 B2 B3 ops prog) ↔
    ∀ f ∈ F, ∀ i o op, f.key = .gred i o op → c.redOK (transGroup c.n c.gs i) (transGroup c.n c.gs o) := by
  have p0 : PosC (c.V0 F) := by
    intro a ha k s d n hb
    obtain ⟨f, hf, rfl⟩ := List.mem_map.1 ha
    cases hb
    exact List.length_pos_iff.2 (hpos f hf)
  have key : ∀ B1 l1, c.combineAt B1 (c.V0 F) = some l1 → ((∀ a ∈ l1, ∀ i o op s d n, a.body = .comm (.gred i o op) s d n →
      c.redOK (transGroup c.n c.gs i) (transGroup c.n c.gs o)) ↔
      ∀ f ∈ F, ∀ i o op, f.key = .gred i o op → c.redOK (transGroup c.n c.gs i) (transGroup c.n c.gs o)) := by
    intro B1 l1 h1
    have r1 : Rl (c.V1 B1 F) l1 := combineAt_rl c B1 h1 p0
    have hcm : l1.filterMap toCM = c.Ms B1 F := toCM_bodies l1 (c.V1 B1 F) r1.bodies.symm
    have hk : ∀ k, (∃ a ∈ l1, ∃ s d n, a.body = .comm k s d n) ↔ ∃ f ∈ F, f.key = k := by
      intro k
      have : (∃ f ∈ F, f.key = k) ↔ k ∈ (c.Ms B1 F).map CM.key := by
        rw [Ms_keys', mem_firsts]
        exact List.mem_map.symm
      rw [this, ← hcm]
      constructor
      · rintro ⟨a, ha, s, d, n, hb⟩
        exact List.mem_map.2 ⟨⟨k, s, d, n⟩, List.mem_filterMap.2 ⟨a, ha, by unfold toCM; rw [hb]⟩, rfl⟩
      · intro h
        obtain ⟨m, hm, rfl⟩ := List.mem_map.1 h
        obtain ⟨a, ha, e⟩ := List.mem_filterMap.1 hm
        unfold toCM at e
        cases hb : a.body with
        | other op => rw [hb] at e; cases e
        | comm k s d n => rw [hb] at e; cases e; exact ⟨a, ha, s, d, n, hb⟩
    constructor
    · intro h f hf i o op e
      obtain ⟨a, ha, s, d, n, hb⟩ := (hk _).2 ⟨f, hf, e⟩
      exact h a ha i o op s d n hb
    · intro h a ha i o op s d n hb
      obtain ⟨f, hf, e⟩ := (hk _).1 ⟨a, ha, s, d, n, hb⟩
      exact h f hf i o op e
  constructor
  · rintro ⟨B1, B2, B3, prog, l5, ⟨l', l0, l1, l2, s1, l3, l4, s2, h1, h2, h3, _, h4, _⟩, _⟩
    rw [hl] at h1
    cases h1
    rw [h2, hF] at h3
    exact (key B1 l1 h3).1 ((splitReduce_some c l1 B2).1 ⟨l2, h4⟩)
  · intro h
    obtain ⟨l1, h1⟩ := combineAt_some c N p0
    obtain ⟨l2, h2⟩ := (splitReduce_some c l1 (N + c.combBytes (c.V0 F))).2 ((key N l1 h1).2 h)
    obtain ⟨s1, l3, h3, h4⟩ := sortRounds_some (l2.map CAct.toAct)
    have p3 : PosC (l3.map Act.toC) := by
      have r1 : Rl (c.V1 N F) l1 := combineAt_rl c N h1 p0
      obtain ⟨v', hv', r2⟩ := splitReduce_rl c (N + c.combBytes (c.V0 F)) h2
      have p2 : PosC l2 := r2.pos (splitGo_pos c _ _ v' hv' (r1.pos (V1_pos c N hpos)))
      obtain ⟨s, hs, r3⟩ := sort_rl roundCmp_rounds (Rl.refl l2) h3 h4
      apply r3.pos
      apply p2.bodies
      intro a ha
      obtain ⟨x, hx, rfl⟩ := List.mem_map.1 ha
      exact ⟨x.1, List.fst_mem_of_mem_zipIdx (hs.1.subset hx), rfl⟩
    obtain ⟨l4, h5⟩ := combineAt_some c (N + c.combBytes (c.V0 F) + c.splitBytes l1) p3
    obtain ⟨s2, l5, h6, h7⟩ := sort2_some c.me (l4.map CAct.toAct)
    refine ⟨N, N + c.combBytes (c.V0 F), N + c.combBytes (c.V0 F) + c.splitBytes l1, _, l5, ⟨l, c.V0 F, l1, l2, s1, l3, l4, s2, hl, hF.symm, h1, ?_, h2, ?_, h3, h4, h5, ?_, h6, h7⟩, rfl⟩
    · intro x hx _ hu
      have := hN x hu
      omega
    · rintro x hx _ (hu | hu)
      · have := hN x hu
        omega
      · omega
    · rintro x hx _ (hu | hu | hu)
      · have := hN x hu
        omega
      · omega
      · omega

/-! ### One process -/

theorem list_bound {α : Type} (g : α → Nat) (l : List α) : ∃ N, ∀ a ∈ l, g a ≤ N := by
  induction l with
  | nil => exact ⟨0, fun a ha => by cases ha⟩
  | cons b l ih =>
    obtain ⟨N, hN⟩ := ih
    refine ⟨N + g b, fun a ha => ?_⟩
    rcases List.mem_cons.1 ha with rfl | ha
    · omega
    · have := hN a ha; omega

theorem adr_mono (c : PCtx β) (m : Option (Nat × Int)) {i j : Int} (h : i ≤ j) : c.adr m i ≤ c.adr m j := by
  unfold PCtx.adr
  cases m with
  | none => exact Nat.le_refl _
  | some m =>
    show m.1 + (i - m.2).toNat * c.es ≤ m.1 + (j - m.2).toNat * c.es
    exact Nat.add_le_add_left (Nat.mul_le_mul_right _ (by omega)) _

/-- Memory in use is limited. -/
theorem inUse_bound (c : PCtx β) (F T : List TR) : ∃ N, ∀ x, c.InUse F T x → x < N := by
  obtain ⟨N1, h1⟩ := list_bound (fun r : TR => c.adr (c.fromMap r.mapNo) r.box.hi.x) F
  obtain ⟨N2, h2⟩ := list_bound (fun r : TR => c.adr (c.toMap r.mapNo) r.box.hi.x) T
  refine ⟨N1 + N2 + c.es, ?_⟩
  rintro x ⟨i, a, (⟨r, hr, _, hi, rfl⟩ | ⟨r, hr, _, hi, rfl⟩), _, hx⟩
  · have := h1 r hr
    have h3 : c.cells.src r.mapNo i ≤ c.adr (c.fromMap r.mapNo) r.box.hi.x := adr_mono c _ (by have := hi.2; omega)
    omega
  · have := h2 r hr
    have h3 : c.cells.dst r.mapNo i ≤ c.adr (c.toMap r.mapNo) r.box.hi.x := adr_mono c _ (by have := hi.2; omega)
    omega

theorem collect_all {α γ : Type} (f : α → Option (List γ)) (l : List α) (h : ∀ a ∈ l, ∃ x, f a = some x) : ∃ r, collect f l = some r := by
  induction l with
  | nil => exact ⟨[], rfl⟩
  | cons a l ih =>
    obtain ⟨x, hx⟩ := h a List.mem_cons_self
    obtain ⟨r, hr⟩ := ih (fun b hb => h b (List.mem_cons_of_mem _ hb))
    exact ⟨x ++ r, by rw [collect, hx, Option.bind_some, hr]; rfl⟩

theorem addr_some {c : PCtx β} {m : Option (Nat × Int)} {x : Int} {m' : Nat × Int} (h : m = some m') (hx : m'.2 ≤ x) : ∃ a, c.addr m x = some a := by
  unfold PCtx.addr
  rw [h]
  exact ⟨_, by rw [Option.bind_some, if_pos hx]⟩

/-- There are mappings for all ranges of process `p`. -/
structure MapsOK (s : MSetup β) (F T : List TR) (p : Nat) : Prop where
  src : ∀ r ∈ F, r.task = p → ∃ m, s.fm p r.mapNo = some m ∧ m.2 ≤ r.box.lo.x
  dst : ∀ r ∈ T, r.task = p → ∃ m, s.tm p r.mapNo = some m ∧ m.2 ≤ r.box.lo.x

variable {s : MSetup β} {F T : List TR} {p : Nat} {F' T' : List TR} {st : TSt}

theorem MapsOK.srcAt (h : MapsOK s F T p) (hT : TransOK s.n F T) (gs : List (List Nat)) {x : Int} (hx : p ∈ ownersAt F s.n x) :
    ∃ a, (s.ctx p gs).addr ((s.ctx p gs).fromMap (noAt F p x).2) x = some a := by
  obtain ⟨r, hr, e, hi⟩ := (mem_ownersAt hT.goodF.task x _).1 hx
  obtain ⟨m, hm, hl⟩ := h.src r hr e
  have : (noAt F p x).2 = r.mapNo := by rw [← e]; exact noAt_mapNo hT.goodF hr hi
  rw [this]
  exact addr_some hm (Int.le_trans hl hi.1)

theorem MapsOK.dstAt (h : MapsOK s F T p) (hT : TransOK s.n F T) (gs : List (List Nat)) {x : Int} (hx : p ∈ ownersAt T s.n x) :
    ∃ a, (s.ctx p gs).addr ((s.ctx p gs).toMap (noAt T p x).2) x = some a := by
  obtain ⟨r, hr, e, hi⟩ := (mem_ownersAt hT.goodT.task x _).1 hx
  obtain ⟨m, hm, hl⟩ := h.dst r hr e
  have : (noAt T p x).2 = r.mapNo := by rw [← e]; exact noAt_mapNo hT.goodT hr hi
  rw [this]
  exact addr_some hm (Int.le_trans hl hi.1)

theorem MapsOK.ops (h : MapsOK s F T p) (hT : TransOK s.n F T) (hc : Calculated s.n s.redOp F T p F' T' st) (skip : Int → Int → Bool) :
    (∃ l, (s.ctx p st.groups).flat st.ops = some l) ∧ ∃ l, collect ((s.ctx p st.groups).copyLoc skip) st.ops = some l := by
  have hat : ∀ op ∈ st.ops, OpAt s.n F T p (opLo (op.resolve s.n p st.groups)) (op.resolve s.n p st.groups) ∧
      opLo (op.resolve s.n p st.groups) < opHi (op.resolve s.n p st.groups) := by
    intro op ho
    have hm : op.resolve s.n p st.groups ∈ st.res s.n p := List.mem_map_of_mem ho
    have hr := (op_range hT hc hm).1
    exact ⟨op_at hT hc hm ⟨Int.le_refl _, hr⟩, hr⟩
  constructor
  · apply collect_all
    intro op ho
    have ho : op ∈ st.ops := by
      simp only [List.mem_append, List.mem_filter] at ho
      tauto
    obtain ⟨h1, h2⟩ := hat op ho
    cases op with
    | loc => exact ⟨[], rfl⟩
    | send x y no t =>
      obtain ⟨o1, e⟩ := h1
      have h2 : x < y := h2
      obtain ⟨a, ha⟩ := h.srcAt hT st.groups (x := x) (by
        have o1 : ownersAt F s.n x = [p] := o1
        rw [o1]; simp)
      have e : no = noAt F p x := e
      simp only [PCtx.flatOp]
      rw [e, ha, Option.bind_some, if_pos h2]
      exact ⟨_, rfl⟩
    | recv x y no q =>
      obtain ⟨_, _, o2, e⟩ := h1
      have h2 : x < y := h2
      obtain ⟨a, ha⟩ := h.dstAt hT st.groups (x := x) o2
      have e : no = noAt T p x := e
      simp only [PCtx.flatOp]
      rw [e, ha, Option.bind_some, if_pos h2]
      exact ⟨_, rfl⟩
    | red x y i o a b =>
      obtain ⟨o1, o2, _, ea, eb⟩ := h1
      have h2 : x < y := h2
      have o1 : transGroup s.n st.groups i = ownersAt F s.n x := o1
      have o2 : transGroup s.n st.groups o = ownersAt T s.n x := o2
      have k1 : ∃ u, (s.ctx p st.groups).addrIf i ((s.ctx p st.groups).fromMap a.2) x = some u := by
        unfold PCtx.addrIf
        split
        · rename_i hm
          have hm : p ∈ transGroup s.n st.groups i := hm
          have ea : (if p ∈ transGroup s.n st.groups i then some a else none) = if p ∈ transGroup s.n st.groups i then some (noAt F p x) else none := ea
          rw [if_pos hm, if_pos hm] at ea
          rw [Option.some.inj ea]
          exact h.srcAt hT st.groups (o1 ▸ hm)
        · exact ⟨_, rfl⟩
      have k2 : ∃ u, (s.ctx p st.groups).addrIf o ((s.ctx p st.groups).toMap b.2) x = some u := by
        unfold PCtx.addrIf
        split
        · rename_i hm
          have hm : p ∈ transGroup s.n st.groups o := hm
          have eb : (if p ∈ transGroup s.n st.groups o then some b else none) = if p ∈ transGroup s.n st.groups o then some (noAt T p x) else none := eb
          rw [if_pos hm, if_pos hm] at eb
          rw [Option.some.inj eb]
          exact h.dstAt hT st.groups (o2 ▸ hm)
        · exact ⟨_, rfl⟩
      obtain ⟨u, hu⟩ := k1
      obtain ⟨v, hv⟩ := k2
      simp only [PCtx.flatOp]
      rw [hu, Option.bind_some, hv, Option.bind_some, if_pos h2]
      exact ⟨_, rfl⟩
  · apply collect_all
    intro op ho
    obtain ⟨h1, h2⟩ := hat op ho
    cases op with
    | send => exact ⟨[], rfl⟩
    | recv => exact ⟨[], rfl⟩
    | red => exact ⟨[], rfl⟩
    | loc x y a b =>
      obtain ⟨o1, o2, ea, eb⟩ := h1
      have ea : a = noAt F p x := ea
      have eb : b = noAt T p x := eb
      obtain ⟨u, hu⟩ := h.srcAt hT st.groups (x := x) (by
        have o1 : ownersAt F s.n x = [p] := o1
        rw [o1]; simp)
      obtain ⟨v, hv⟩ := h.dstAt hT st.groups (x := x) o2
      simp only [PCtx.copyLoc]
      by_cases cs : skip a.2 b.2 = true
      · rw [if_pos cs]
        exact ⟨_, rfl⟩
      · rw [if_neg cs, ea, eb, hu, Option.bind_some, hv]
        exact ⟨_, rfl⟩

theorem red_ex (h : TransOK s.n F T) (hc : Calculated s.n s.redOp F T p F' T' st) {i : Int} (hp : p ∈ ownersAt F s.n i ∨ p ∈ ownersAt T s.n i)
    (hl : (ownersAt F s.n i).length ≠ 1) : ∃ x y a b, .red x y (ownersAt F s.n i) (ownersAt T s.n i) a b ∈ st.res s.n p := by
  have hseg : ∃ t ∈ segsOf (cutsOf F T), t.1 ≤ i ∧ i < t.2 := by
    rcases hp with hp | hp
    · obtain ⟨r, hr, hrp, hri⟩ := (mem_ownersAt h.goodF.task i p).1 hp
      exact segs_cover (cutsOf_sorted F T) ((mem_cutsOf F T _).2 ⟨r, Or.inl hr, Or.inl rfl⟩)
        ((mem_cutsOf F T _).2 ⟨r, Or.inl hr, Or.inr rfl⟩) hri.1 hri.2
    · obtain ⟨r, hr, hrp, hri⟩ := (mem_ownersAt h.goodT.task i p).1 hp
      exact segs_cover (cutsOf_sorted F T) ((mem_cutsOf F T _).2 ⟨r, Or.inr hr, Or.inl rfl⟩)
        ((mem_cutsOf F T _).2 ⟨r, Or.inr hr, Or.inr rfl⟩) hri.1 hri.2
  obtain ⟨t, ht, hi⟩ := hseg
  obtain ⟨l, el⟩ := (hc.segs h).1 t ht
  have hat := ops_at h hc ht hi el
  have oF : ownersAt F s.n i = ownersAt F s.n t.1 := owners_const_of (fun r hr => seg_has ht (Or.inl hr) hi)
  have oT : ownersAt T s.n i = ownersAt T s.n t.1 := owners_const_of (fun r hr => seg_has ht (Or.inr hr) hi)
  rw [oF] at hp hl ⊢
  rw [oT] at hp ⊢
  rcases specSeg_cases el with ⟨c1, c2, _⟩ | ⟨c1, e⟩ | ⟨q, hq, c1, e⟩ | ⟨c1, e⟩
  · rcases hp with hp | hp
    · exact absurd hp c1
    · exact absurd hp c2
  · rw [c1] at hl; exact absurd rfl hl
  · rw [c1] at hl; exact absurd rfl hl
  · have : ROp.red t.1 t.2 (ownersAt F s.n t.1) (ownersAt T s.n t.1) (if p ∈ ownersAt F s.n t.1 then some (noAt F p t.1) else none)
        (if p ∈ ownersAt T s.n t.1 then some (noAt T p t.1) else none) ∈ (st.res s.n p).filter (opHas i) := by
      rw [hat, e]; simp
    exact ⟨_, _, _, _, (List.mem_filter.1 this).1⟩

theorem red_me (h : TransOK s.n F T) (hc : Calculated s.n s.redOp F T p F' T' st) {x y : Int} {ins outs : List Nat} {a b : Option (Int × Int)}
    (ho : .red x y ins outs a b ∈ st.res s.n p) : p ∈ ins ∨ p ∈ outs := by
  obtain ⟨t, ht, l, el, ho, _, _⟩ := op_seg h hc ho
  by_contra hn
  rw [not_or] at hn
  rcases specSeg_cases el with ⟨_, _, rfl⟩ | ⟨_, rfl⟩ | ⟨q, _, _, rfl⟩ | ⟨_, rfl⟩
  · cases ho
  · obtain ⟨o, _, e⟩ := List.mem_map.1 ho
    split at e <;> cases e
  · split at ho
    · rw [List.mem_singleton] at ho; cases ho
    · cases ho
  · rw [List.mem_singleton] at ho
    cases ho
    unfold specSeg at el
    simp only [if_pos hn] at el
    cases el

/-- A process can do its part of a switch if and only if no assert on the sizes of
groups fails. -/
theorem switch_iff (hT : TransOK s.n F T) (hp : p < s.n) (hc : Calculated s.n s.redOp F T p F' T' st) (hm : MapsOK s F T p) (skip : Int → Int → Bool) :
    (∃ prog, (s.ctx p st.groups).IsSwitch ((s.ctx p []).InUse F T) skip st.ops prog) ↔
    ∀ i, p ∈ ownersAt F s.n i ∨ p ∈ ownersAt T s.n i →
      ¬ (s.useReduce = true ∧ (ownersAt F s.n i).length = s.n ∧ ((ownersAt T s.n i).length = s.n ∨ (ownersAt T s.n i).length = 1)) →
      8 < (ownersAt F s.n i).length → ownersAt T s.n i ≠ [] ∧ ((ownersAt T s.n i).head? = some p → (ownersAt F s.n i).length ≤ 32) := by
  obtain ⟨⟨l, hl⟩, l2, hl2⟩ := hm.ops hT hc skip
  have hlen : ∀ op ∈ st.ops, (opHi (op.resolve s.n p st.groups) - opLo (op.resolve s.n p st.groups)).toNat < 2 ^ 32 := by
    intro op ho
    exact (op_range hT hc (List.mem_map_of_mem ho)).2
  obtain ⟨hfit, hmap⟩ := flat_fits (c := s.ctx p st.groups) hc.canon.ops hl hlen
  have hok : OpOK (s.ctx p st.groups) F T (st.res s.n p) := by
    refine ⟨⟨hT.goodF, hT.goodT⟩, fun o ho i hi => op_at hT hc ho hi, fun o ho => (op_range hT hc ho).1, ops_sep hT hc, ?_, fun o ho => hp, ?_⟩
    · intro o ho
      obtain ⟨op, hm, rfl⟩ := List.mem_map.1 ho
      exact hmap op hm
    · exact res_groups hc.canon
  obtain ⟨N, hN⟩ := inUse_bound (s.ctx p []) F T
  have hiff := prepared_iff hl hfit hok.pos hN
  have e1 : (∃ prog, (s.ctx p st.groups).IsSwitch ((s.ctx p []).InUse F T) skip st.ops prog) ↔
      ∃ B1 B2 B3 prog, (s.ctx p st.groups).Prepared ((s.ctx p []).InUse F T) B1 B2 B3 st.ops prog := by
    constructor
    · rintro ⟨prog, B1, B2, B3, p1, p2, h, _⟩
      exact ⟨B1, B2, B3, p1, h⟩
    · rintro ⟨B1, B2, B3, p1, h⟩
      exact ⟨p1 ++ l2, B1, B2, B3, p1, l2, h, hl2, rfl⟩
  rw [e1, hiff]
  constructor
  · intro h i hpi hnc h8
    obtain ⟨x, y, a, b, hm⟩ := red_ex hT hc hpi (by omega)
    obtain ⟨g1, g2⟩ := hok.groups _ hm _ _ _ _ _ _ rfl
    have hk : (s.ctx p st.groups).redK (ownersAt F s.n i) (ownersAt T s.n i) =
        .gred (groupId s.n st.groups (ownersAt F s.n i)) (groupId s.n st.groups (ownersAt T s.n i)) s.redOp := by
      rcases redK_cases (s.ctx p st.groups) (ownersAt F s.n i) (ownersAt T s.n i) with ⟨c1, ek⟩ | ⟨c1, ek⟩ | ⟨c1, ek⟩
      · exact absurd ⟨c1.1, c1.2.1, Or.inl c1.2.2⟩ hnc
      · exact absurd ⟨c1.1, c1.2.1, Or.inr c1.2.2.2⟩ hnc
      · exact ek
    have hf := OpOK.mem_fits (c := s.ctx p st.groups).2 ⟨_, hm, rfl⟩
    have g1 : transGroup s.n st.groups (groupId s.n st.groups (ownersAt F s.n i)) = ownersAt F s.n i := g1
    have g2 : transGroup s.n st.groups (groupId s.n st.groups (ownersAt T s.n i)) = ownersAt T s.n i := g2
    have := h _ hf _ _ _ hk
    have : (s.ctx p st.groups).redOK (transGroup s.n st.groups (groupId s.n st.groups (ownersAt F s.n i)))
      (transGroup s.n st.groups (groupId s.n st.groups (ownersAt T s.n i))) := this
    rw [g1, g2] at this
    exact this h8
  · intro h f hf i o op hk
    obtain ⟨ro, ho, e⟩ := OpOK.mem_fits.1 hf
    obtain ⟨x, y, ins, outs, a, b, rfl, ek, _⟩ := fit_red e (fun q => by rw [hk]; exact ⟨fun h => (by cases h), fun h => (by cases h)⟩)
    rw [hk] at ek
    have hrange : x < y := hok.range _ ho
    obtain ⟨o1, o2, o3, ea, eb⟩ := hok.at' _ ho x ⟨Int.le_refl _, hrange⟩
    have o1 : ins = ownersAt F s.n x := o1
    have o2 : outs = ownersAt T s.n x := o2
    obtain ⟨g1, g2⟩ := hok.groups _ ho _ _ _ _ _ _ rfl
    have hme := red_me hT hc ho
    rcases redK_cases (s.ctx p st.groups) ins outs with ⟨c1, e1⟩ | ⟨c1, e1⟩ | ⟨c1, e1⟩
    · rw [e1] at ek; cases ek
    · rw [e1] at ek; cases ek
    · rw [e1] at ek
      cases ek
      rw [g1, g2]
      have := h x
      rw [← o1, ← o2] at this
      exact this hme c1


/-! ### Calculation of transitions -/

/-- Borders can be sorted. -/
theorem borderSort_some {F T : List TR} (hF : SmallList F) (hT : SmallList T) : ∃ b, IsBorderSort b (transBorders F T) := by
  have hs := transBorders_small hF hT
  have hd : DecidableRel ble := fun p q => by unfold ble; infer_instance
  refine ⟨(transBorders F T).mergeSort (fun a b => decide (ble a b)), List.mergeSort_perm _ _, ?_⟩
  have := List.pairwise_mergeSort (le := fun a b => decide (ble a b))
    (fun a b c h1 h2 => by
      simp only [decide_eq_true_eq] at *
      unfold ble at *
      rcases h1 with h1 | ⟨h1, h1'⟩ <;> rcases h2 with h2 | ⟨h2, h2'⟩
      · left; omega
      · left; omega
      · left; omega
      · right; exact ⟨by omega, fun h => h2' (h1' h)⟩)
    (fun a b => by
      simp only [Bool.or_eq_true, decide_eq_true_eq]
      unfold ble
      rcases Int.lt_trichotomy a.b b.b with h | h | h
      · exact Or.inl (Or.inl h)
      · by_cases c : a.isStart = true
        · exact Or.inr (Or.inr ⟨h.symm, fun _ => c⟩)
        · exact Or.inl (Or.inr ⟨h, fun h => absurd h c⟩)
      · exact Or.inr (Or.inl h)) (transBorders F T)
  refine List.Pairwise.imp_of_mem ?_ this
  intro a b ha hb h
  have ha := hs a ((List.mergeSort_perm _ _).mem_iff.1 ha)
  have hb := hs b ((List.mergeSort_perm _ _).mem_iff.1 hb)
  exact (rbCmp_le a b ha hb).2 (by simpa using h)

theorem calculated_some {n redOp : Nat} {F T : List TR} (h : TransOK n F T) (p : Nat) : (∃ F' T' st, Calculated n redOp F T p F' T' st) ↔
    ∀ i : Int, (p ∈ ownersAt F n i ∨ p ∈ ownersAt T n i) → if (ownersAt F n i).length = 1 then redOp < 100 else redOp ≠ 0 := by
  obtain ⟨b, hb⟩ := borderSort_some h.smallF h.smallT
  rw [← C17_completes_iff redOp h p hb]
  constructor
  · rintro ⟨F', T', st, hc⟩
    obtain ⟨b', hb', e⟩ := hc.result
    have := C17_filtered_lists_suffice redOp h hc.enoughF hc.enoughT hb hb'
    rw [e] at this
    have h2 : ((calcAddReductions n redOp p b).map (TSt.res n p)).isSome := by rw [← this]; rfl
    rwa [Option.isSome_map] at h2
  · intro hs
    obtain ⟨st, e⟩ := Option.isSome_iff_exists.1 hs
    exact ⟨F, T, st, Enough.refl _ _ h.goodF h.sortF, Enough.refl _ _ h.goodT h.sortT, b, hb, e⟩

/-! ### Order of combinations -/

section
variable {α : Type} (red : α → α → α)

def opt2 : Option α → Option α → Option α
  | none, b => b
  | some a, none => some a
  | some a, some b => some (red a b)

def combAll : List α → Option α
  | [] => none
  | a :: l => opt2 red (some a) (combAll l)

variable {red} {Q : α → Prop}

theorem combAll_Q (hq : ∀ a b, Q a → Q b → Q (red a b)) {L : List α} (h : ∀ x ∈ L, Q x) : ∀ v, combAll red L = some v → Q v := by
  induction L with
  | nil => intro v e; cases e
  | cons a L ih =>
    intro v e
    unfold combAll at e
    cases e2 : combAll red L with
    | none => rw [e2] at e; cases e; exact h a List.mem_cons_self
    | some b =>
      rw [e2] at e
      cases e
      exact hq _ _ (h a List.mem_cons_self) (ih (fun x hx => h x (List.mem_cons_of_mem _ hx)) b e2)

theorem opt2_assoc (ha : ∀ a b c, Q a → Q b → Q c → red (red a b) c = red a (red b c)) {a b c : Option α} (h1 : ∀ v, a = some v → Q v)
    (h2 : ∀ v, b = some v → Q v) (h3 : ∀ v, c = some v → Q v) : opt2 red (opt2 red a b) c = opt2 red a (opt2 red b c) := by
  cases a <;> cases b <;> cases c <;> try rfl
  exact congrArg some (ha _ _ _ (h1 _ rfl) (h2 _ rfl) (h3 _ rfl))

theorem opt2_comm (hc : ∀ a b, Q a → Q b → red a b = red b a) {a b : Option α} (h1 : ∀ v, a = some v → Q v)
    (h2 : ∀ v, b = some v → Q v) : opt2 red a b = opt2 red b a := by
  cases a <;> cases b <;> try rfl
  exact congrArg some (hc _ _ (h1 _ rfl) (h2 _ rfl))

theorem combAll_append (hq : ∀ a b, Q a → Q b → Q (red a b)) (ha : ∀ a b c, Q a → Q b → Q c → red (red a b) c = red a (red b c))
    {A B : List α} (hA : ∀ x ∈ A, Q x) (hB : ∀ x ∈ B, Q x) : combAll red (A ++ B) = opt2 red (combAll red A) (combAll red B) := by
  induction A with
  | nil => rfl
  | cons a A ih =>
    have hA' : ∀ x ∈ A, Q x := fun x hx => hA x (List.mem_cons_of_mem _ hx)
    show opt2 red (some a) (combAll red (A ++ B)) = opt2 red (opt2 red (some a) (combAll red A)) _
    rw [ih hA', opt2_assoc ha (fun v e => by cases e; exact hA a List.mem_cons_self) (combAll_Q hq hA') (combAll_Q hq hB)]

theorem combAll_perm (hq : ∀ a b, Q a → Q b → Q (red a b)) (hc : ∀ a b, Q a → Q b → red a b = red b a)
    (ha : ∀ a b c, Q a → Q b → Q c → red (red a b) c = red a (red b c)) {L L' : List α} (h : L.Perm L') :
    (∀ x ∈ L, Q x) → combAll red L = combAll red L' := by
  induction h with
  | nil => intro _; rfl
  | cons a _ ih =>
    intro hL
    show opt2 red _ _ = opt2 red _ _
    rw [ih (fun x hx => hL x (List.mem_cons_of_mem _ hx))]
  | swap a b l =>
    intro hL
    have h1 : ∀ v, some a = some v → Q v := fun v e => by cases e; exact hL a (by simp)
    have h2 : ∀ v, some b = some v → Q v := fun v e => by cases e; exact hL b (by simp)
    have h3 := combAll_Q hq (L := l) (fun x hx => hL x (by simp [hx]))
    show opt2 red (some b) (opt2 red (some a) (combAll red l)) = opt2 red (some a) (opt2 red (some b) (combAll red l))
    rw [← opt2_assoc ha h2 h1 h3, ← opt2_assoc ha h1 h2 h3, opt2_comm hc h2 h1]
  | trans h1 _ ih1 ih2 => intro hL; rw [ih1 hL]; exact ih2 (fun x hx => hL x (h1.mem_iff.2 hx))

theorem combAll_comb (hq : ∀ a b, Q a → Q b → Q (red a b)) (hc : ∀ a b, Q a → Q b → red a b = red b a)
    (ha : ∀ a b c, Q a → Q b → Q c → red (red a b) c = red a (red b c)) {L : List α} {v : α} (h : Comb red L v) :
    (∀ x ∈ L, Q x) → combAll red L = some v := by
  induction h with
  | one v => intro _; rfl
  | app _ _ hp ih1 ih2 =>
    intro hL
    have hA := fun x hx => hL x (hp.mem_iff.1 (List.mem_append_left _ hx))
    have hB := fun x hx => hL x (hp.mem_iff.1 (List.mem_append_right _ hx))
    rw [← combAll_perm hq hc ha hp (fun x hx => hL x (hp.mem_iff.1 hx)), combAll_append hq ha hA hB, ih1 hA, ih2 hB]
    rfl

/-- The combination is unique if order and brackets do not matter. -/
theorem Comb.unique (hq : ∀ a b, Q a → Q b → Q (red a b)) (hc : ∀ a b, Q a → Q b → red a b = red b a)
    (ha : ∀ a b c, Q a → Q b → Q c → red (red a b) c = red a (red b c)) {L : List α} {v w : α} (h : Comb red L v) (h' : Comb red L w)
    (hL : ∀ x ∈ L, Q x) : v = w :=
  Option.some.inj ((combAll_comb hq hc ha h hL).symm.trans (combAll_comb hq hc ha h' hL))
end

/-! ### A reference for collectives -/

/-- Combines the elements of processes `0..n-1` in this order. -/
def collRef (s : MSetup β) (_ : Nat) (w : Nat → List β) (_ : Nat) : List β :=
  (List.range ((w 0).length / s.es)).flatMap (fun j =>
    (List.range s.n).tail.foldl (fun a q => s.red a (slice s.es (w q) j)) (slice s.es (w 0) j))

theorem slice_flatMap_mem {ι : Type} {es : Nat} (f : ι → List β) (I : List ι) (hf : ∀ i ∈ I, (f i).length = es) :
    (I.flatMap f).length = I.length * es ∧ ∀ (j : Nat) (i : ι), I[j]? = some i → slice es (I.flatMap f) j = f i := by
  induction I with
  | nil => exact ⟨by simp, fun j i h => by cases h⟩
  | cons a I ih =>
    obtain ⟨ih1, ih2⟩ := ih (fun i hi => hf i (List.mem_cons_of_mem _ hi))
    have h0 := hf a List.mem_cons_self
    refine ⟨?_, ?_⟩
    · rw [List.flatMap_cons, List.length_append, ih1, h0, List.length_cons, Nat.succ_mul, Nat.add_comm]
    intro j i h
    rw [List.flatMap_cons]
    cases j with
    | zero => cases h; exact slice_zero _ _ h0
    | succ j => rw [slice_cons _ _ h0]; exact ih2 j i h

theorem collRef_ok (s : MSetup β) (hn : 0 < s.n) (hes : 0 < s.es) (hr : ∀ a b : List β, a.length = s.es → b.length = s.es → (s.red a b).length = s.es) :
    CollOK s (collRef s) where
  loc k w w' p h := by
    unfold collRef
    rw [h 0 hn]
    congr 1
    funext j
    apply List.foldl_ext
    intro a q hq
    rw [h q (List.mem_range.1 (List.mem_of_mem_tail hq))]
  val root p w m hp _ hw := by
    have hm : (w 0).length / s.es = m := by rw [hw 0 hn]; exact Nat.mul_div_cancel m hes
    have hl : ∀ j ∈ List.range m, ((List.range s.n).tail.foldl (fun a q => s.red a (slice s.es (w q) j)) (slice s.es (w 0) j)).length = s.es := by
      intro j hj
      have hj := List.mem_range.1 hj
      have key : ∀ (l : List Nat) (a : List β), (∀ q ∈ l, q < s.n) → a.length = s.es → (l.foldl (fun a q => s.red a (slice s.es (w q) j)) a).length = s.es := by
        intro l
        induction l with
        | nil => intro a _ h; exact h
        | cons q l ih =>
          intro a h1 h2
          exact ih _ (fun x hx => h1 x (List.mem_cons_of_mem _ hx)) (hr _ _ h2 (slice_length (hw q (h1 q List.mem_cons_self)) hj))
      exact key _ _ (fun q hq => List.mem_range.1 (List.mem_of_mem_tail hq)) (slice_length (hw 0 hn) hj)
    obtain ⟨h1, h2⟩ := slice_flatMap_mem _ _ hl
    unfold collRef
    rw [hm]
    refine ⟨by rw [h1, List.length_range], ?_⟩
    intro j hj
    rw [h2 j j (List.getElem?_range hj)]
    have := comb_foldl (red := s.red) (fun q => slice s.es (w q) j) (List.range s.n).tail [slice s.es (w 0) j] _ (.one _)
    have e : List.range s.n = 0 :: (List.range s.n).tail := by
      obtain ⟨k, hk⟩ : ∃ k, s.n = k + 1 := ⟨s.n - 1, by omega⟩
      rw [hk, List.range_succ_eq_map]
      rfl
    rw [e, List.map_cons]
    exact this

end Laik.Mp
