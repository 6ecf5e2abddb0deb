import Verif.Model.MpiAll
/-!
# The result of `laik_mpi_prepare`, from its buffers and the actions of the ranges
-/

namespace Laik.Mp

variable {β ι : Type}

theorem combGo_size (e : CEnv) (l : List (CAct β)) : ∀ seen off, (combGo e seen off l).2 = off + (combSize e seen l).1 := by
  induction l with
  | nil => intro seen off; rfl
  | cons a l ih =>
    intro seen off
    unfold combGo combSize
    cases hb : a.body with
    | other op => simp only; exact ih seen off
    | comm k s d n =>
      simp only
      by_cases c1 : (a.round, k) ∈ seen
      · rw [if_pos c1, if_pos c1]; exact ih seen off
      · rw [if_neg c1, if_neg c1]
        by_cases c2 : (a :: l.filter (CAct.same a.round k)).length > 1
        · rw [if_pos c2, if_pos c2]
          simp only
          rw [ih]
          omega
        · rw [if_neg c2, if_neg c2]
          simp only
          exact ih _ _

theorem combBytes_eq (c : PCtx β) (l : List (CAct β)) : c.combBytes l = (combGo c.env [] 0 l).2 * c.es := by
  unfold PCtx.combBytes
  rw [combGo_size, Nat.zero_add]

theorem Rl.combBytes {l l' : List (CAct β)} (h : Rl l l') (c : PCtx β) : c.combBytes l = c.combBytes l' := by
  obtain ⟨f, hf, rfl⟩ := h
  have := rl_combGo f c.env l [] 0 (fun a ha b hb => hf.inj ha hb) (by simp)
  rw [List.map_nil] at this
  rw [combBytes_eq, combBytes_eq, this]

theorem Rl.bodies {l l' : List (CAct β)} (h : Rl l l') : l.map (·.body) = l'.map (·.body) := by
  obtain ⟨f, hf, rfl⟩ := h
  rw [List.map_map]
  rfl

theorem toCM_bodies (l l' : List (CAct β)) (h : l.map (·.body) = l'.map (·.body)) : l.filterMap toCM = l'.filterMap toCM := by
  have e : ∀ l : List (CAct β), l.filterMap toCM = (l.map (·.body)).filterMap (fun b => toCM ⟨0, b⟩) := by
    intro l
    rw [List.filterMap_map]
    rfl
  rw [e l, e l', h]

theorem red3_bytes (c : PCtx β) (B r s d n : Nat) (ins outs : List Nat) :
    (c.red3 0 r s d n ins outs).map (·.2) = (c.red3 B r s d n ins outs).map (·.2) := by
  unfold PCtx.red3
  cases outs with
  | nil => rfl
  | cons t os =>
    simp only
    split
    · rfl
    · split <;> rfl

theorem red2_bytes (c : PCtx β) (B r s d n : Nat) (ins outs : List Nat) :
    (c.red2 0 r s d n ins outs).map (·.2) = (c.red2 B r s d n ins outs).map (·.2) := by
  unfold PCtx.red2
  simp only
  split
  · split <;> rfl
  · rfl

theorem splitBytes_gred (c : PCtx β) {a : CAct β} (l : List (CAct β)) {i o : Int} {op s d n : Nat} (h : a.body = .comm (.gred i o op) s d n) :
    c.splitBytes (a :: l) = ((if (transGroup c.n c.gs i).length * (transGroup c.n c.gs i).length > 4 * ((transGroup c.n c.gs i).length + (transGroup c.n c.gs i).length)
      then c.red3 0 a.round s d n (transGroup c.n c.gs i) (transGroup c.n c.gs o)
      else c.red2 0 a.round s d n (transGroup c.n c.gs i) (transGroup c.n c.gs o)).map (·.2)).getD 0 + c.splitBytes l := by
  rw [PCtx.splitBytes]
  simp only [h]

theorem splitBytes_other (c : PCtx β) {a : CAct β} (l : List (CAct β)) (h : CAct.isGred a = false) : c.splitBytes (a :: l) = c.splitBytes l := by
  unfold CAct.isGred at h
  rw [PCtx.splitBytes]
  cases hb : a.body with
  | other op => simp
  | comm k s d n =>
    rw [hb] at h
    cases k with
    | gred => cases h
    | send => simp
    | recv => simp
    | red => simp

/-- Size of the second buffer. -/
theorem splitBytes_eq (c : PCtx β) (l : List (CAct β)) : ∀ B v, c.splitGo B l = some v → c.splitBytes l = c.gsizes (l.filterMap toCM) := by
  induction l with
  | nil => intro B v _; rfl
  | cons a l ih =>
    intro B v h
    cases hg : CAct.isGred a with
    | false =>
      rw [splitGo_other c B l hg] at h
      cases hv : c.splitGo B l with
      | none => rw [hv] at h; cases h
      | some w =>
        rw [splitBytes_other c l hg, ih B w hv]
        unfold PCtx.gsizes
        unfold CAct.isGred at hg
        cases hb : a.body with
        | other op =>
          rw [List.filterMap_cons_none (by unfold toCM; rw [hb])]
        | comm k s d n =>
          rw [List.filterMap_cons_some (b := ⟨k, s, d, n⟩) (by unfold toCM; rw [hb]), List.map_cons, List.sum_cons]
          rw [hb] at hg
          cases k with
          | gred => cases hg
          | send => exact (Nat.zero_add _).symm
          | recv => exact (Nat.zero_add _).symm
          | red => exact (Nat.zero_add _).symm
    | true =>
      unfold CAct.isGred at hg
      split at hg
      · rename_i i o op s d n hb
        rw [splitGo_gred c B l hb] at h
        obtain ⟨x, hx, h⟩ := Option.bind_eq_some_iff.1 h
        cases hv : c.splitGo (B + x.2) l with
        | none => rw [hv] at h; cases h
        | some w =>
          rw [splitBytes_gred c l hb, ih _ w hv]
          unfold PCtx.gsizes
          rw [List.filterMap_cons_some (b := ⟨.gred i o op, s, d, n⟩) (by unfold toCM; rw [hb]), List.map_cons, List.sum_cons,
            gsize_gred c (a := ⟨.gred i o op, s, d, n⟩) rfl]
          congr 1
          unfold PCtx.gsz
          by_cases c1 : (transGroup c.n c.gs i).length * (transGroup c.n c.gs i).length > 4 * ((transGroup c.n c.gs i).length + (transGroup c.n c.gs i).length)
          · have c1' : use3 (transGroup c.n c.gs i) = true := by unfold use3; simpa using c1
            rw [if_pos c1] at hx
            rw [if_pos c1, if_pos c1', red3_bytes c B, hx, Option.map_some, Option.getD_some, (red3_size hx).1]
          · have c1' : ¬ use3 (transGroup c.n c.gs i) = true := by unfold use3; simpa using c1
            rw [if_neg c1] at hx
            rw [if_neg c1, if_neg c1', red2_bytes c B, hx, Option.map_some, Option.getD_some, red2_size hx]
      · cases hg

/-! ### Sizes of communication are positive -/

def PosC (l : List (CAct β)) : Prop := ∀ a ∈ l, ∀ k s d n, a.body = .comm k s d n → 0 < n

theorem slotRecvs_pos (c : PCtx β) (B r n : Nat) (ins : List Nat) (hn : 0 < n) : PosC (c.slotRecvs B r n ins) := by
  intro a ha k s d n' h
  obtain ⟨x, _, rfl⟩ := List.mem_map.1 ha
  cases h
  exact hn

theorem slotReduce_pos (c : PCtx β) (B r s d n : Nat) (ins : List Nat) : PosC (c.slotReduce B r s d n ins) := by
  have : ∀ a ∈ c.slotReduce B r s d n ins, ∃ op, a.body = .other op := by
    intro a ha
    unfold PCtx.slotReduce at ha
    simp only at ha
    split at ha
    · rw [List.mem_singleton] at ha; subst ha; exact ⟨_, rfl⟩
    · split at ha
      · rcases List.mem_append.1 ha with ha | ha
        · split at ha
          · cases ha
          · rw [List.mem_singleton] at ha; subst ha; exact ⟨_, rfl⟩
        · obtain ⟨t, _, rfl⟩ := List.mem_map.1 ha
          exact ⟨_, rfl⟩
      · rcases List.mem_cons.1 ha with rfl | ha
        · exact ⟨_, rfl⟩
        · obtain ⟨t, _, rfl⟩ := List.mem_map.1 ha
          exact ⟨_, rfl⟩
  intro a ha k s' d' n' h
  obtain ⟨op, e⟩ := this a ha
  rw [e] at h
  cases h

theorem PosC.append {l l' : List (CAct β)} (h : PosC l) (h' : PosC l') : PosC (l ++ l') := by
  intro a ha
  rcases List.mem_append.1 ha with ha | ha
  · exact h a ha
  · exact h' a ha

theorem PosC.of_counts {l : List (CAct β)} {n : Nat} (hn : 0 < n) (h : ∀ a ∈ l, ∃ k s d, a.body = .comm k s d n) : PosC l := by
  intro a ha k s d n' e
  obtain ⟨k', s', d', e'⟩ := h a ha
  rw [e'] at e
  cases e
  exact hn

theorem red3_pos {c : PCtx β} {B r s d n : Nat} {ins outs : List Nat} {x : List (CAct β) × Nat} (h : c.red3 B r s d n ins outs = some x) (hn : 0 < n) :
    PosC x.1 := by
  unfold PCtx.red3 at h
  cases outs with
  | nil => cases h
  | cons t os =>
    simp only at h
    split at h
    · cases h
      apply PosC.of_counts hn
      intro a ha
      rcases List.mem_append.1 ha with ha | ha
      · split at ha
        · rw [List.mem_singleton] at ha; subst ha; exact ⟨_, _, _, rfl⟩
        · cases ha
      · split at ha
        · rw [List.mem_singleton] at ha; subst ha; exact ⟨_, _, _, rfl⟩
        · cases ha
    · split at h
      · cases h
        refine ((slotRecvs_pos c B r n ins hn).append (slotReduce_pos c B r s d n ins)).append ?_
        apply PosC.of_counts hn
        intro a ha
        obtain ⟨q, _, rfl⟩ := List.mem_map.1 ha
        exact ⟨_, _, _, rfl⟩
      · cases h

theorem red2_pos {c : PCtx β} {B r s d n : Nat} {ins outs : List Nat} {x : List (CAct β) × Nat} (h : c.red2 B r s d n ins outs = some x) (hn : 0 < n) :
    PosC x.1 := by
  unfold PCtx.red2 at h
  simp only at h
  have hs : PosC (if c.me ∈ ins then (outs.filter (fun q => q ≠ c.me)).map (fun q => (⟨3 * r, .comm (.send q) s 0 n⟩ : CAct β)) else []) := by
    apply PosC.of_counts hn
    intro a ha
    split at ha
    · obtain ⟨q, _, rfl⟩ := List.mem_map.1 ha
      exact ⟨_, _, _, rfl⟩
    · cases ha
  split at h
  · split at h
    · cases h
      exact (hs.append (slotRecvs_pos c B r n ins hn)).append (slotReduce_pos c B r s d n ins)
    · cases h
  · cases h
    exact hs

theorem splitGo_pos (c : PCtx β) (l : List (CAct β)) : ∀ B v, c.splitGo B l = some v → PosC l → PosC v := by
  induction l with
  | nil => intro B v h _; cases h; exact fun a ha => by cases ha
  | cons a l ih =>
    intro B v h hp
    have hp' : PosC l := fun b hb => hp b (List.mem_cons_of_mem _ hb)
    cases hg : CAct.isGred a with
    | false =>
      rw [splitGo_other c B l hg] at h
      cases hv : c.splitGo B l with
      | none => rw [hv] at h; cases h
      | some w =>
        rw [hv] at h
        cases h
        intro y hy
        rcases List.mem_cons.1 hy with rfl | hy
        · exact hp a List.mem_cons_self
        · exact ih B w hv hp' y hy
    | true =>
      unfold CAct.isGred at hg
      split at hg
      · rename_i i o op s d n hb
        have hn := hp a List.mem_cons_self _ _ _ _ hb
        rw [splitGo_gred c B l hb] at h
        obtain ⟨x, hx, h⟩ := Option.bind_eq_some_iff.1 h
        cases hv : c.splitGo (B + x.2) l with
        | none => rw [hv] at h; cases h
        | some w =>
          rw [hv] at h
          cases h
          refine PosC.append ?_ (ih _ w hv hp')
          split at hx
          · exact red3_pos hx hn
          · exact red2_pos hx hn
      · cases hg

theorem PosC.bodies {l l' : List (CAct β)} (h : PosC l) (e : ∀ a ∈ l', ∃ b ∈ l, b.body = a.body) : PosC l' := by
  intro a ha k s d n hb
  obtain ⟨b, hb', eb⟩ := e a ha
  exact h b hb' k s d n (eb.trans hb)

theorem Rl.pos {l l' : List (CAct β)} (h : Rl l l') (hp : PosC l) : PosC l' := by
  obtain ⟨f, hf, rfl⟩ := h
  apply hp.bodies
  intro a ha
  obtain ⟨b, hb, rfl⟩ := List.mem_map.1 ha
  exact ⟨b, hb, rfl⟩

variable {c : PCtx β} {inUse : Nat → Prop} {B1 B2 B3 : Nat} {ops : List TOp} {prog : List (CBody β)} {F : List (FIt ι)}

theorem V1_pos (c : PCtx β) (B1 : Nat) (hpos : ∀ f ∈ F, f.idx ≠ []) : PosC (c.V1 B1 F) := by
  intro a ha k s d n hb
  have hm : (⟨k, s, d, n⟩ : CM) ∈ c.Ms B1 F := List.mem_filterMap.2 ⟨a, ha, by unfold toCM; rw [hb]⟩
  obtain ⟨h1, h2⟩ := Ms_cnt c B1 F _ hm
  have h3 : n = (ixOf F k).length := h1
  rw [h3]
  have h4 : ixOf F k ≠ [] := (ixOf_nil hpos k).1 (mem_firsts.2 h2)
  exact List.length_pos_iff.2 h4

/-- What a process executes, from the actions of the ranges. -/
theorem splitGo_outs (c : PCtx β) (l : List (CAct β)) : ∀ B v, c.splitGo B l = some v → ∀ a ∈ l, ∀ i o op s d n, a.body = .comm (.gred i o op) s d n →
    use3 (transGroup c.n c.gs i) = true → transGroup c.n c.gs o ≠ [] := by
  induction l with
  | nil => intro B v _ a ha; cases ha
  | cons a l ih =>
    intro B v h a' ha' i o op s d n hb hu
    cases hg : CAct.isGred a with
    | false =>
      rw [splitGo_other c B l hg] at h
      cases hv : c.splitGo B l with
      | none => rw [hv] at h; cases h
      | some w =>
        rcases List.mem_cons.1 ha' with rfl | ha'
        · unfold CAct.isGred at hg; rw [hb] at hg; cases hg
        · exact ih B w hv a' ha' i o op s d n hb hu
    | true =>
      unfold CAct.isGred at hg
      split at hg
      · rename_i i' o' op' s' d' n' hb'
        rw [splitGo_gred c B l hb'] at h
        obtain ⟨x, hx, h⟩ := Option.bind_eq_some_iff.1 h
        cases hv : c.splitGo (B + x.2) l with
        | none => rw [hv] at h; cases h
        | some w =>
          rcases List.mem_cons.1 ha' with rfl | ha'
          · rw [hb] at hb'
            cases hb'
            rw [if_pos (by unfold use3 at hu; simpa using hu)] at hx
            exact (red3_size hx).2
          · exact ih _ w hv a' ha' i o op s d n hb hu
      · cases hg

theorem PCtx.Prepared.sok (h : c.Prepared inUse B1 B2 B3 ops prog)
    (hF : ∀ l, c.flat ops = some l → (if c.useReduce then l.map c.allRed else l) = F.map FIt.act) (hpos : ∀ f ∈ F, f.idx ≠ [])
    (hu : ∀ x, c.used F x → inUse x) (M : MData β ι) :
    (∃ S, SOK c M B1 B2 B3 F S ∧ prog = S.map (fun x => x.1.body)) ∧
    (∀ x, inUse x → ¬ c.buf1 B1 F x ∧ ¬ c.buf2 B1 B2 F x ∧ ¬ c.buf3 M B1 B2 B3 F x) ∧
    ∀ f ∈ F, ∀ i o op, f.key = .gred i o op → use3 (transGroup c.n c.gs i) = true → transGroup c.n c.gs o ≠ [] := by
  obtain ⟨l5, ⟨l, l0, l1, l2, s1, l3, l4, s2, h1, h2, h3, f1, h4, f2, h5, h6, h7, f3, h8, h9⟩, h10⟩ := h
  have e0 : l0 = c.V0 F := h2.trans (hF l h1)
  subst e0
  have p0 : PosC (c.V0 F) := by
    intro a ha k s d n hb
    obtain ⟨f, hf, rfl⟩ := List.mem_map.1 ha
    cases hb
    exact List.length_pos_iff.2 (hpos f hf)
  have r1 : Rl (c.V1 B1 F) l1 := combineAt_rl c B1 h3 p0
  obtain ⟨v', hv', r2'⟩ := splitReduce_rl c B2 h4
  obtain ⟨v, hv, r2''⟩ := r1.splitGo c B2 hv'
  have r2 : Rl v l2 := r2''.trans r2'
  obtain ⟨s, hs, r3⟩ := sort_rl roundCmp_rounds r2 h5 h6
  rw [V3_eq c M B1 B2 F hv hs] at r3
  have pv : PosC v := splitGo_pos c _ B2 v hv (V1_pos c B1 hpos)
  have p3 : PosC (c.V3 M B1 B2 F) := by
    rw [← V3_eq c M B1 B2 F hv hs]
    apply pv.bodies
    intro a ha
    obtain ⟨x, hx, rfl⟩ := List.mem_map.1 ha
    exact ⟨x.1, List.fst_mem_of_mem_zipIdx (hs.1.subset hx), rfl⟩
  have r4 : Rl (c.comb1 B3 (c.V3 M B1 B2 F)) l4 := (r3.comb1 c B3).trans (combineAt_rl c B3 h7 (r3.pos p3))
  obtain ⟨S, hS, r5⟩ := sort_rl (roundCmp_2phase c.me) r4 h8 h9
  have b1 : ∀ x, c.buf1 B1 F x ↔ B1 ≤ x ∧ x < B1 + c.combBytes (c.V0 F) := by
    intro x
    rw [combBytes_eq]
    exact Iff.rfl
  have b2 : ∀ x, c.buf2 B1 B2 F x ↔ B2 ≤ x ∧ x < B2 + c.splitBytes l1 := by
    intro x
    rw [splitBytes_eq c l1 B2 v' hv', toCM_bodies l1 (c.V1 B1 F) r1.bodies.symm]
    exact Iff.rfl
  have b3 : ∀ x, c.buf3 M B1 B2 B3 F x ↔ B3 ≤ x ∧ x < B3 + c.combBytes (l3.map Act.toC) := by
    intro x
    rw [← r3.combBytes, combBytes_eq]
    exact Iff.rfl
  refine ⟨⟨S, ⟨?_, ?_, hS⟩, ?_⟩, ?_, ?_⟩
  · intro x hx
    rw [b2] at hx
    rw [b1]
    have := f2 x hx.1 hx.2
    rw [not_or] at this
    exact ⟨fun h => this.1 (hu x h), this.2⟩
  · intro x hx
    rw [b3] at hx
    rw [b1, b2]
    have := f3 x hx.1 hx.2
    rw [not_or, not_or] at this
    exact ⟨fun h => this.1 (hu x h), this.2⟩
  · have e1 := r5.bodies
    rw [List.map_map, List.map_map] at e1
    rw [h10]
    exact e1.symm
  · intro x hx
    refine ⟨fun h => ?_, fun h => ?_, fun h => ?_⟩
    · rw [b1] at h
      exact f1 x h.1 h.2 hx
    · rw [b2] at h
      exact f2 x h.1 h.2 (Or.inl hx)
    · rw [b3] at h
      exact f3 x h.1 h.2 (Or.inl hx)
  · intro f hf i o op hk hu
    have hm : f.key ∈ (c.Ms B1 F).map CM.key := by
      rw [Ms_keys']
      exact mem_firsts.2 (List.mem_map_of_mem hf)
    obtain ⟨a, ha, e⟩ := List.mem_map.1 hm
    have := splitGo_outs c _ B2 v hv _ (Ms_mem c B1 F ha) i o op a.src a.dst a.cnt (by
      show CBody.comm a.key a.src a.dst a.cnt = _
      rw [e, hk])
    exact this hu

end Laik.Mp
