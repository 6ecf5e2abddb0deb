import Verif.Model.Tcp2Match
/-!
# Order of messages of a switch over the TCP2 backend
-/

namespace Laik.DE

variable {A V : Type}

/-- Two actions are in the global order. -/
def inOrder (p : Nat) (a b : GA A V) : Prop :=
  ∀ ka kb, gkey id p (GA.act a) = some ka → gkey id p (GA.act b) = some kb → ¬ klt kb ka

theorem gkey_round {p : Nat} {a : GA A V} {k : GKey} (h : gkey id p (GA.act a) = some k) : k.1 = a.2.2 := by
  unfold gkey at h
  split at h <;> first | (injection h with h; rw [← h]; rfl) | cases h

theorem inOrder_round {p : Nat} {a b : GA A V} (h : a.2.2 < b.2.2) : inOrder p a b := by
  intro ka kb ha hb hk
  rw [klt_iff] at hk
  have := gkey_round ha
  have := gkey_round hb
  omega

theorem inOrder_left {p : Nat} {a b : GA A V} (h : a.1.kind = .other) : inOrder p a b := by
  intro ka kb ha
  simp [gkey, GA.act, h] at ha

theorem inOrder_right {p : Nat} {a b : GA A V} (h : b.1.kind = .other) : inOrder p a b := by
  intro ka kb _ hb
  simp [gkey, GA.act, h] at hb

theorem ghostRecvs_order (val : Nat → Int → V) (p : Nat) (x y : Int) (dst : Int → A) (red : Bool) (l : List Nat)
    (hl : l.Pairwise (· < ·)) : (ghostRecvs val x y dst red l).Pairwise (inOrder p) := by
  induction l generalizing red with
  | nil => exact List.Pairwise.nil
  | cons t l ih =>
    rw [List.pairwise_cons] at hl
    unfold ghostRecvs
    rw [List.pairwise_cons]
    refine ⟨?_, ih _ hl.2⟩
    intro g hg ka kb ha hb hk
    obtain ⟨t', h1, h2, h3⟩ := ghostRecvs_kind val x y dst true l g hg
    have hlt := hl.1 t' h1
    simp only [gkey, GA.act, DAct.kind, Option.some.injEq] at ha
    simp only [gkey, GA.act, h2, Option.some.injEq] at hb
    rw [← ha, ← hb, klt_iff] at hk
    simp only [h3, id] at hk
    (repeat' split at hk) <;> omega

theorem red_order (M : Cells A) (val : Nat → Int → V) (res : List Nat → List Nat → Int → V) (p : Nat) (x y : Int)
    {ins outs : List Nat} (a b : Option (Int × Int)) (hi : ins.Pairwise (· < ·)) (ho : outs.Pairwise (· < ·)) :
    (ghostOp M val res p (.red x y ins outs a b)).Pairwise (inOrder p) := by
  unfold ghostOp
  cases outs with
  | nil => exact List.Pairwise.nil
  | cons r os =>
    simp only []
    by_cases c : p = r
    · subst c
      rw [if_neg (by simp), List.pairwise_append, List.pairwise_append]
      refine ⟨⟨?_, ghostRecvs_order val p x y _ _ _ (hi.sublist List.filter_sublist), ?_⟩, ?_, ?_⟩
      · split
        · exact List.pairwise_singleton _ _
        · exact List.Pairwise.nil
      · intro g hg g' _
        split at hg
        · rcases List.mem_singleton.1 hg with rfl
          exact inOrder_left rfl
        · cases hg
      · rw [List.pairwise_map]
        refine List.Pairwise.imp_of_mem ?_ (ho.sublist (List.filter_sublist (p := fun q => decide (q ≠ p))))
        intro t t' ht ht' hlt ka kb ha hb hk
        rw [List.pairwise_cons] at ho
        have hpt : ∀ t ∈ (p :: os).filter (fun q => decide (q ≠ p)), p < t := by
          intro t ht
          rw [List.mem_filter, decide_eq_true_eq] at ht
          rcases List.mem_cons.1 ht.1 with e | e
          · exact absurd e ht.2
          · exact ho.1 t e
        have h1 := hpt t ht
        have h2 := hpt t' ht'
        simp only [gkey, GA.act, DAct.kind, Option.some.injEq] at ha
        simp only [gkey, GA.act, DAct.kind, Option.some.injEq] at hb
        rw [← ha, ← hb, klt_iff] at hk
        simp only [id, h1, h2, if_true] at hk
        omega
      · intro g hg g' hg'
        obtain ⟨t, _, rfl⟩ := List.mem_map.1 hg'
        rcases List.mem_append.1 hg with hg | hg
        · split at hg
          · rcases List.mem_singleton.1 hg with rfl
            exact inOrder_left rfl
          · cases hg
        · obtain ⟨t', _, _, h3⟩ := ghostRecvs_kind val x y _ _ _ g hg
          exact inOrder_round (by rw [h3]; simp)
    · rw [if_pos c, List.pairwise_append]
      refine ⟨?_, ?_, ?_⟩
      · split
        · exact List.pairwise_singleton _ _
        · exact List.Pairwise.nil
      · split
        · exact List.pairwise_singleton _ _
        · exact List.Pairwise.nil
      · intro g hg g' hg'
        split at hg
        · split at hg'
          · rcases List.mem_singleton.1 hg with rfl
            rcases List.mem_singleton.1 hg' with rfl
            exact inOrder_round (by simp)
          · cases hg'
        · cases hg

/-- Members of a lowered reduction. -/
theorem red_mem (M : Cells A) (val : Nat → Int → V) (res : List Nat → List Nat → Int → V) (p : Nat) (x y : Int)
    {ins outs : List Nat} (a b : Option (Int × Int)) {g : GA A V} (hg : g ∈ ghostOp M val res p (.red x y ins outs a b)) :
    (g.1.kind = .other ∨ g.2.2 = rnd x ∨ g.2.2 = rnd x + 1) ∧ g.1.kind ≠ .send p ∧ g.1.kind ≠ .recv p := by
  unfold ghostOp at hg
  cases outs with
  | nil => cases hg
  | cons r os =>
    simp only [] at hg
    by_cases c : p = r
    · subst c
      rw [if_neg (by simp)] at hg
      rcases List.mem_append.1 hg with hg | hg
      · rcases List.mem_append.1 hg with hg | hg
        · split at hg
          · rcases List.mem_singleton.1 hg with rfl
            exact ⟨Or.inl rfl, by simp [DAct.kind], by simp [DAct.kind]⟩
          · cases hg
        · obtain ⟨t, ht, h2, h3⟩ := ghostRecvs_kind val x y _ _ _ g hg
          have : t ≠ p := by simpa using (List.mem_filter.1 ht).2
          exact ⟨Or.inr (Or.inl h3), by rw [h2]; simp, by rw [h2]; simpa using this⟩
      · obtain ⟨t, ht, rfl⟩ := List.mem_map.1 hg
        have : t ≠ p := by simpa using (List.mem_filter.1 ht).2
        exact ⟨Or.inr (Or.inr rfl), by simpa [DAct.kind] using this, by simp [DAct.kind]⟩
    · rw [if_pos c] at hg
      have c' : r ≠ p := fun h => c h.symm
      rcases List.mem_append.1 hg with hg | hg
      · split at hg
        · rcases List.mem_singleton.1 hg with rfl
          exact ⟨Or.inr (Or.inl rfl), by simpa [DAct.kind] using c', by simp [DAct.kind]⟩
        · cases hg
      · split at hg
        · rcases List.mem_singleton.1 hg with rfl
          exact ⟨Or.inr (Or.inr rfl), by simp [DAct.kind], by simpa [DAct.kind] using c'⟩
        · cases hg

theorem ops_order (M : Cells A) (val : Nat → Int → V) (res : List Nat → List Nat → Int → V) {ops : Nat → List ROp}
    (ok : OpsOK ops) {p : Nat} {O : List ROp} (hO : Sorted p (ops p) O) :
    (O.flatMap (ghostOp M val res p)).Pairwise (inOrder p) := by
  have hrspec : ∀ op ∈ O, ∀ x y ins outs a b, op = .red x y ins outs a b →
      (⟨x, y, ins, outs⟩ : RedSpec) ∈ (ops p).filterMap rReds := by
    intro op ho x y ins outs a b e
    rw [List.mem_filterMap]
    exact ⟨op, (hO.mem.1 ho).1, by rw [e]; rfl⟩
  have hinc : O.Pairwise (fun a b => isRedOp a = true → isRedOp b = true →
      ∀ ra rb, rReds a = some ra → rReds b = some rb → ra.x < rb.x) := by
    rw [← List.pairwise_filter, hO.reds, List.pairwise_filter]
    have := ok.inc p
    rw [List.pairwise_filterMap] at this
    refine this.imp ?_
    intro a b h _ _ ra rb ha hb
    exact h ra ha rb hb
  rw [List.pairwise_flatMap]
  constructor
  · intro op ho
    cases op with
    | loc => exact List.Pairwise.nil
    | send => exact List.pairwise_singleton _ _
    | recv => exact List.pairwise_singleton _ _
    | red x y ins outs a b =>
      have := ok.sorted p _ (hrspec _ ho x y ins outs a b rfl)
      exact red_order M val res p x y a b this.1 this.2
  · refine List.Pairwise.imp_of_mem ?_ (hO.order.and (hinc.and hO.redsFirst))
    rintro a b ha hb ⟨hord, hx, hfirst⟩ g hg g' hg'
    have nsa := ok.nself p a (hO.mem.1 ha).1
    have nsb := ok.nself p b (hO.mem.1 hb).1
    have redred : ∀ (x y : Int) ins outs (u v : Option (Int × Int)), a = .red x y ins outs u v → isRedOp b = false → inOrder p g g' := by
      intro x y ins outs u v e hb'
      have hs := ok.small p _ (hrspec a ha x y ins outs u v e)
      rw [e] at hg
      have hm := (red_mem M val res p x y u v hg).1
      rcases hm with h | h
      · exact inOrder_left h
      · apply inOrder_round
        have : g'.2.2 = rndEnd := by
          cases b with
          | loc => cases hg'
          | red => cases hb'
          | send => rcases List.mem_singleton.1 hg' with rfl; rfl
          | recv => rcases List.mem_singleton.1 hg' with rfl; rfl
        rw [this]
        unfold rnd at h
        unfold rndEnd
        simp only [] at hs
        omega
    cases a with
    | loc => cases hg
    | red x y ins outs u v =>
      cases hbr : isRedOp b
      · exact redred x y ins outs u v rfl hbr
      · cases b with
        | loc => cases hbr
        | send => cases hbr
        | recv => cases hbr
        | red x' y' ins' outs' u' v' =>
          have hlt := hx rfl rfl _ _ rfl rfl
          simp only [] at hlt
          have hs := ok.small p _ (hrspec _ ha x y ins outs u v rfl)
          simp only [] at hs
          rcases (red_mem M val res p x y u v hg).1 with h | h
          · exact inOrder_left h
          · rcases (red_mem M val res p x' y' u' v' hg').1 with h' | h'
            · exact inOrder_right h'
            · apply inOrder_round
              unfold rnd at h h'
              omega
    | send x y u q =>
      have hq : q ≠ p := fun e => nsa.1 (by rw [e]; rfl)
      rcases List.mem_singleton.1 hg with rfl
      cases b with
      | loc => cases hg'
      | red => exact absurd (hfirst rfl) (by simp [isRedOp])
      | send x' y' u' q' =>
        have hq' : q' ≠ p := fun e => nsb.1 (by rw [e]; rfl)
        rcases List.mem_singleton.1 hg' with rfl
        intro ka kb hka hkb
        simp only [gkey, GA.act, DAct.kind, Option.some.injEq] at hka hkb
        rw [← hka, ← hkb, klt_iff]
        simp only [kindOf, phase, peer] at hord
        simp only [id]
        (repeat' split at hord) <;> (repeat' split) <;> omega
      | recv x' y' u' q' =>
        have hq' : q' ≠ p := fun e => nsb.2 (by rw [e]; rfl)
        rcases List.mem_singleton.1 hg' with rfl
        intro ka kb hka hkb
        simp only [gkey, GA.act, DAct.kind, Option.some.injEq] at hka hkb
        rw [← hka, ← hkb, klt_iff]
        simp only [kindOf, phase, peer] at hord
        simp only [id]
        (repeat' split at hord) <;> (repeat' split) <;> omega
    | recv x y u q =>
      have hq : q ≠ p := fun e => nsa.2 (by rw [e]; rfl)
      rcases List.mem_singleton.1 hg with rfl
      cases b with
      | loc => cases hg'
      | red => exact absurd (hfirst rfl) (by simp [isRedOp])
      | send x' y' u' q' =>
        have hq' : q' ≠ p := fun e => nsb.1 (by rw [e]; rfl)
        rcases List.mem_singleton.1 hg' with rfl
        intro ka kb hka hkb
        simp only [gkey, GA.act, DAct.kind, Option.some.injEq] at hka hkb
        rw [← hka, ← hkb, klt_iff]
        simp only [kindOf, phase, peer] at hord
        simp only [id]
        (repeat' split at hord) <;> (repeat' split) <;> omega
      | recv x' y' u' q' =>
        have hq' : q' ≠ p := fun e => nsb.2 (by rw [e]; rfl)
        rcases List.mem_singleton.1 hg' with rfl
        intro ka kb hka hkb
        simp only [gkey, GA.act, DAct.kind, Option.some.injEq] at hka hkb
        rw [← hka, ← hkb, klt_iff]
        simp only [kindOf, phase, peer] at hord
        simp only [id]
        (repeat' split at hord) <;> (repeat' split) <;> omega

theorem ghost_nself (M : Cells A) (val : Nat → Int → V) (res : List Nat → List Nat → Int → V) {ops : Nat → List ROp}
    (ok : OpsOK ops) {p : Nat} {O : List ROp} (hO : Sorted p (ops p) O) :
    ∀ g ∈ O.flatMap (ghostOp M val res p), g.1.kind ≠ .send p ∧ g.1.kind ≠ .recv p := by
  intro g hg
  obtain ⟨op, ho, hg⟩ := List.mem_flatMap.1 hg
  have ns := ok.nself p op (hO.mem.1 ho).1
  cases op with
  | loc => cases hg
  | send x y a t => rcases List.mem_singleton.1 hg with rfl; exact ns
  | recv x y a t => rcases List.mem_singleton.1 hg with rfl; exact ns
  | red x y ins outs a b => exact (red_mem M val res p x y a b hg).2

/-- All actions of a process with expected contents. -/
def ghost (M : Cells A) (val : Nat → Int → V) (res : List Nat → List Nat → Int → V) (skip : Int → Int → Bool)
    (p : Nat) (ops O : List ROp) : List (GA A V) :=
  O.flatMap (ghostOp M val res p) ++ ghostCopies M skip (val p) ops

theorem ghost_execOK (M : Nat → Cells A) (val : Nat → Int → V) (res : List Nat → List Nat → Int → V)
    (skip : Nat → Int → Int → Bool) {ops : Nat → List ROp} (ok : OpsOK ops) {O : Nat → List ROp}
    (hO : ∀ p, Sorted p (ops p) (O p)) :
    ExecOK (fun p => (ghost (M p) val res (skip p) p (ops p) (O p)).map GA.act) (fun _ => id) := by
  have hk := fun p => ghostCopies_kind (M p) (skip p) (val p) (ops p)
  have hns : ∀ p, ∀ g ∈ ghost (M p) val res (skip p) p (ops p) (O p), g.1.kind ≠ .send p ∧ g.1.kind ≠ .recv p := by
    intro p g hg
    rcases List.mem_append.1 hg with hg | hg
    · exact ghost_nself (M p) val res ok (hO p) g hg
    · rw [hk p g hg]; simp
  refine ⟨?_, ?_, ?_, ?_⟩
  · intro p
    rw [List.pairwise_map]
    show List.Pairwise (inOrder p) _
    unfold ghost
    rw [List.pairwise_append]
    refine ⟨ops_order (M p) val res ok (hO p), ?_, ?_⟩
    · exact List.pairwise_of_forall_mem_list (fun g hg g' _ => inOrder_left (hk p g hg))
    · intro g _ g' hg'
      exact inOrder_right (hk p g' hg')
  · intro p a ha
    obtain ⟨g, hg, rfl⟩ := List.mem_map.1 ha
    exact hns p g hg
  · intro p q
    rw [List.filterMap_map, List.filterMap_map]
    by_cases e : p = q
    · subst e
      rw [filterMap_none, filterMap_none]
      · intro g hg
        simp [recvKey, GA.act, (hns p g hg).2]
      · intro g hg
        simp [sendKey, GA.act, (hns p g hg).1]
    · unfold ghost
      rw [List.filterMap_append, List.filterMap_append]
      rw [filterMap_none (l := ghostCopies (M p) _ _ _), filterMap_none (l := ghostCopies (M q) _ _ _), List.append_nil, List.append_nil]
      · have h1 := sendKeys (M p) val res ok e (hO p)
        have h2 := recvKeys (M q) val res ok e (hO q)
        rw [ok.reds p q, ok.msgs p q e, ← h2] at h1
        exact h1
      · intro g hg
        simp [recvKey, GA.act, hk q g hg]
      · intro g hg
        simp [sendKey, GA.act, hk p g hg]
  · intro p q a ha b hb c h
    obtain ⟨g, hg, rfl⟩ := List.mem_map.1 ha
    cases e : g.1 <;> simp [GA.act, e, DAct.kind] at h

end Laik.DE
