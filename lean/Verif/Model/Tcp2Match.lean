import Verif.Model.Tcp2ExecLemmas
/-!
# Messages of a switch over the TCP2 backend match
-/

namespace Laik.DE

variable {A V : Type}

/-- What is needed from the operations of the transitions of all processes. -/
structure OpsOK (ops : Nat → List ROp) : Prop where
  msgs : ∀ p q, p ≠ q → (ops p).filterMap (rSends q) = (ops q).filterMap (rRecvs p)
  reds : ∀ p q, ((ops p).filterMap rReds).filter (fun r => r.involves q) = ((ops q).filterMap rReds).filter (fun r => r.involves p)
  inc : ∀ p, ((ops p).filterMap rReds).Pairwise (fun a b => a.x < b.x)
  nself : ∀ p, ∀ op ∈ ops p, kindOf op ≠ .send p ∧ kindOf op ≠ .recv p
  small : ∀ p, ∀ r ∈ (ops p).filterMap rReds, -2 ^ 30 ≤ r.x ∧ r.x < 2 ^ 30
  sorted : ∀ p, ∀ r ∈ (ops p).filterMap rReds, r.ins.Pairwise (· < ·) ∧ r.outs.Pairwise (· < ·)

/-- Messages from `p` to `q` in a reduction. -/
def redMsgs (val : Nat → Int → V) (res : List Nat → List Nat → Int → V) (p q : Nat) (r : RedSpec) : List (Nat × List V) :=
  match r.outs with
  | [] => []
  | r0 :: _ =>
    (if p ≠ r0 ∧ p ∈ r.ins ∧ q = r0 then [(rnd r.x, (idxs r.x r.y).map (val p))] else []) ++
    (if p = r0 ∧ q ≠ r0 ∧ q ∈ r.outs then [(rnd r.x + 1, (idxs r.x r.y).map (res r.ins r.outs))] else [])

theorem redMsgs_involves (val : Nat → Int → V) (res : List Nat → List Nat → Int → V) (p q : Nat) (r : RedSpec) :
    (r.involves q = false → redMsgs val res p q r = []) ∧ (r.involves p = false → redMsgs val res p q r = []) := by
  unfold redMsgs RedSpec.involves
  cases e : r.outs with
  | nil => simp
  | cons r0 os =>
    constructor
    · intro h
      rw [decide_eq_false_iff_not, not_or] at h
      simp only []
      rw [if_neg (by rintro ⟨_, _, c⟩; exact h.2 (by rw [c]; exact List.mem_cons_self)), if_neg (by rintro ⟨_, _, c⟩; exact h.2 c)]
      rfl
    · intro h
      rw [decide_eq_false_iff_not, not_or] at h
      simp only []
      rw [if_neg (by rintro ⟨_, c, _⟩; exact h.1 c), if_neg (by rintro ⟨c, _, _⟩; exact h.2 (by rw [c]; exact List.mem_cons_self))]
      rfl

theorem ghostRecvs_eq (val : Nat → Int → V) (x y : Int) (dst : Int → A) (red : Bool) (l : List Nat) (p : Nat)
    (hl : l.Pairwise (· < ·)) :
    (ghostRecvs val x y dst red l).filterMap (fun g : GA A V => recvKey id p (GA.act g)) =
      if p ∈ l then [(rnd x, (idxs x y).map (val p))] else [] := by
  induction l generalizing red with
  | nil => rfl
  | cons t l ih =>
    rw [List.pairwise_cons] at hl
    unfold ghostRecvs
    by_cases e : t = p
    · subst e
      have : t ∉ l := fun h => by have := hl.1 t h; omega
      rw [List.filterMap_cons_some (b := (rnd x, (idxs x y).map (val t))) (by simp [recvKey, GA.act, DAct.kind, GA.msg, DAct.lo, DAct.hi]),
        ih _ hl.2]
      simp [this]
    · rw [List.filterMap_cons_none (by simp [recvKey, GA.act, DAct.kind, e]), ih _ hl.2]
      have : (p ∈ t :: l) ↔ p ∈ l := by
        rw [List.mem_cons]
        exact ⟨fun h => h.resolve_left (fun h => e h.symm), Or.inr⟩
      simp only [this]

theorem ghostRecvs_kind (val : Nat → Int → V) (x y : Int) (dst : Int → A) (red : Bool) (l : List Nat) :
    ∀ g ∈ ghostRecvs val x y dst red l, ∃ t ∈ l, g.1.kind = .recv t ∧ g.2.2 = rnd x := by
  induction l generalizing red with
  | nil => intro g hg; cases hg
  | cons t l ih =>
    intro g hg
    unfold ghostRecvs at hg
    rcases List.mem_cons.1 hg with rfl | hg
    · exact ⟨t, List.mem_cons_self, rfl, rfl⟩
    · obtain ⟨t', h1, h2⟩ := ih _ g hg
      exact ⟨t', List.mem_cons_of_mem _ h1, h2⟩

theorem filterMap_none {α β : Type} {f : α → Option β} {l : List α} (h : ∀ a ∈ l, f a = none) : l.filterMap f = [] := by
  rw [List.filterMap_eq_nil_iff]
  exact h

section
variable (M : Cells A) (val : Nat → Int → V) (res : List Nat → List Nat → Int → V)

theorem red_sends {p q : Nat} (hpq : p ≠ q) {x y : Int} {ins outs : List Nat} (a b : Option (Int × Int))
    (ho : outs.Pairwise (· < ·)) :
    (ghostOp M val res p (.red x y ins outs a b)).filterMap (fun g : GA A V => sendKey id q (GA.act g)) =
      redMsgs val res p q ⟨x, y, ins, outs⟩ := by
  unfold ghostOp redMsgs
  cases outs with
  | nil => rfl
  | cons r os =>
    simp only []
    by_cases c : p = r
    · subst c
      rw [if_neg (by simp), if_neg (c := p ≠ p ∧ p ∈ ins ∧ q = p) (by rintro ⟨h, _⟩; exact h rfl), List.nil_append,
        List.filterMap_append, List.filterMap_append]
      have e1 : (if p ∈ ins then [((DAct.copy x y (M.src (a.getD (-1, -1)).2) (M.dst (b.getD (-1, -1)).2), val p, 0) : GA A V)] else []).filterMap
          (fun g : GA A V => sendKey id q (GA.act g)) = [] := by
        apply filterMap_none
        intro g hg
        split at hg
        · rcases List.mem_singleton.1 hg with rfl
          simp [sendKey, GA.act, DAct.kind]
        · cases hg
      have e2 : (ghostRecvs val x y (M.dst (b.getD (-1, -1)).2) (decide (p ∈ ins)) (ins.filter (fun q => q ≠ p))).filterMap
          (fun g : GA A V => sendKey id q (GA.act g)) = [] := by
        apply filterMap_none
        intro g hg
        obtain ⟨t, _, h, _⟩ := ghostRecvs_kind val x y _ _ _ g hg
        simp [sendKey, GA.act, h]
      rw [e1, e2, List.nil_append, List.nil_append, List.filterMap_map]
      rw [filterMap_eq_single (ho.sublist List.filter_sublist) q (rnd x + 1, (idxs x y).map (res ins (p :: os)))]
      · have : (q ∈ (p :: os).filter (fun q => decide (q ≠ p))) ↔ (q ≠ p ∧ q ∈ p :: os) := by
          rw [List.mem_filter]
          simp only [decide_eq_true_eq]
          exact And.comm
        simp only [true_and]
        exact if_congr this rfl rfl
      · intro _
        simp [sendKey, GA.act, DAct.kind, GA.msg, DAct.lo, DAct.hi]
      · intro o _ hoq
        simp [sendKey, GA.act, DAct.kind, hoq]
    · rw [if_pos c, List.filterMap_append]
      rw [if_neg (c := p = r ∧ q ≠ r ∧ q ∈ r :: os) (by rintro ⟨h, _⟩; exact c h), List.append_nil]
      have e2 : (if p ∈ r :: os then [((DAct.recv r x y (M.dst (b.getD (-1, -1)).2) false, res ins (r :: os), rnd x + 1) : GA A V)]
          else []).filterMap (fun g : GA A V => sendKey id q (GA.act g)) = [] := by
        apply filterMap_none
        intro g hg
        split at hg
        · rcases List.mem_singleton.1 hg with rfl
          simp [sendKey, GA.act, DAct.kind]
        · cases hg
      rw [e2, List.append_nil]
      by_cases hi : p ∈ ins
      · rw [if_pos hi]
        by_cases hq : q = r
        · subst hq
          rw [if_pos ⟨c, hi, rfl⟩]
          simp [sendKey, GA.act, DAct.kind, GA.msg, DAct.lo, DAct.hi]
        · rw [if_neg (by rintro ⟨_, _, h⟩; exact hq h)]
          have : ¬ r = q := fun h => hq h.symm
          simp [sendKey, GA.act, DAct.kind, this]
      · rw [if_neg hi, if_neg (by rintro ⟨_, h, _⟩; exact hi h)]
        rfl

theorem red_recvs {p q : Nat} (hpq : p ≠ q) {x y : Int} {ins outs : List Nat} (a b : Option (Int × Int))
    (hi : ins.Pairwise (· < ·)) :
    (ghostOp M val res q (.red x y ins outs a b)).filterMap (fun g : GA A V => recvKey id p (GA.act g)) =
      redMsgs val res p q ⟨x, y, ins, outs⟩ := by
  unfold ghostOp redMsgs
  cases outs with
  | nil => rfl
  | cons r os =>
    simp only []
    by_cases c : q = r
    · subst c
      rw [if_neg (by simp), if_neg (c := p = q ∧ q ≠ q ∧ q ∈ q :: os) (by rintro ⟨_, h, _⟩; exact h rfl), List.append_nil,
        List.filterMap_append, List.filterMap_append]
      have e1 : (if q ∈ ins then [((DAct.copy x y (M.src (a.getD (-1, -1)).2) (M.dst (b.getD (-1, -1)).2), val q, 0) : GA A V)] else []).filterMap
          (fun g : GA A V => recvKey id p (GA.act g)) = [] := by
        apply filterMap_none
        intro g hg
        split at hg
        · rcases List.mem_singleton.1 hg with rfl
          simp [recvKey, GA.act, DAct.kind]
        · cases hg
      have e2 : (((q :: os).filter (fun t => t ≠ q)).map (fun t => ((DAct.send t x y (M.dst (b.getD (-1, -1)).2), res ins (q :: os), rnd x + 1) : GA A V))).filterMap
          (fun g : GA A V => recvKey id p (GA.act g)) = [] := by
        apply filterMap_none
        intro g hg
        obtain ⟨t, _, rfl⟩ := List.mem_map.1 hg
        simp [recvKey, GA.act, DAct.kind]
      rw [e1, e2, List.nil_append, List.append_nil, ghostRecvs_eq _ _ _ _ _ _ _ (hi.sublist List.filter_sublist)]
      refine if_congr ?_ rfl rfl
      rw [List.mem_filter]
      simp only [decide_eq_true_eq, and_true]
      exact And.comm
    · rw [if_pos c, List.filterMap_append]
      rw [if_neg (c := p ≠ r ∧ p ∈ ins ∧ q = r) (by rintro ⟨_, _, h⟩; exact c h), List.nil_append]
      have e1 : (if q ∈ ins then [((DAct.send r x y (M.src (a.getD (-1, -1)).2), val q, rnd x) : GA A V)] else []).filterMap
          (fun g : GA A V => recvKey id p (GA.act g)) = [] := by
        apply filterMap_none
        intro g hg
        split at hg
        · rcases List.mem_singleton.1 hg with rfl
          simp [recvKey, GA.act, DAct.kind]
        · cases hg
      rw [e1, List.nil_append]
      by_cases ho : q ∈ r :: os
      · rw [if_pos ho]
        by_cases hp : p = r
        · subst hp
          rw [if_pos ⟨rfl, c, ho⟩]
          simp [recvKey, GA.act, DAct.kind, GA.msg, DAct.lo, DAct.hi]
        · rw [if_neg (by rintro ⟨h, _⟩; exact hp h)]
          have : ¬ r = p := fun h => hp h.symm
          simp [recvKey, GA.act, DAct.kind, this]
      · rw [if_neg ho, if_neg (by rintro ⟨_, _, h⟩; exact ho h)]
        rfl

theorem flatMap_filter {α β : Type} (P : α → Bool) (f : α → List β) (l : List α) (h : ∀ a ∈ l, P a = false → f a = []) :
    l.flatMap f = (l.filter P).flatMap f := by
  induction l with
  | nil => rfl
  | cons a l ih =>
    have ih := ih (fun b hb => h b (List.mem_cons_of_mem _ hb))
    cases c : P a
    · rw [List.filter_cons_of_neg (by simp [c]), List.flatMap_cons, h a List.mem_cons_self c, ih]; rfl
    · rw [List.filter_cons_of_pos c, List.flatMap_cons, List.flatMap_cons, ih]

/-- Reductions of a list of operations. -/
theorem reds_filter (ops : List ROp) : (ops.filter isRedOp).filterMap rReds = ops.filterMap rReds := by
  rw [List.filterMap_filter]
  apply List.filterMap_congr
  intro op _
  cases op <;> simp [isRedOp, rReds]

/-- A list with reductions first, seen through the messages to one process. -/
theorem flatMap_split (O : List ROp) (k : AKind) (hk : k ≠ .other) {β : Type} (f : ROp → List β)
    (hloc : ∀ op ∈ O, isLoc op = false)
    (hf : ∀ op ∈ O, isRedOp op = false → kindOf op ≠ k → f op = [])
    (h : O.Pairwise (fun a b => isRedOp b = true → isRedOp a = true)) :
    O.flatMap f = (O.filter isRedOp).flatMap f ++ (O.filter (fun a => kindOf a = k)).flatMap f := by
  conv_lhs => rw [split_filter isRedOp O h, List.flatMap_append]
  congr 1
  have e : O.filter (fun a => kindOf a = k) = (O.filter (fun a => !isRedOp a)).filter (fun a => kindOf a = k) := by
    rw [List.filter_filter]
    apply List.filter_congr
    intro op ho
    have := hloc op ho
    cases op with
    | loc => cases this
    | red => simp [kindOf, isRedOp, Ne.symm hk]
    | send => simp [isRedOp]
    | recv => simp [isRedOp]
  rw [e]
  apply flatMap_filter
  intro op ho hc
  rw [List.mem_filter] at ho
  refine hf op ho.1 (by simpa using ho.2) (by simpa using hc)

theorem sendKeys {ops : Nat → List ROp} (ok : OpsOK ops) {p q : Nat} (hpq : p ≠ q) {O : List ROp} (hO : Sorted p (ops p) O) :
    (O.flatMap (ghostOp M val res p)).filterMap (fun g : GA A V => sendKey id q (GA.act g)) =
      (((ops p).filterMap rReds).filter (fun r => r.involves q)).flatMap (redMsgs val res p q) ++
      ((ops p).filterMap (rSends q)).map (fun xy => (rndEnd, (idxs xy.1 xy.2).map (val p))) := by
  rw [List.filterMap_flatMap, flatMap_split O (.send q) (by simp) _ (fun op ho => (hO.mem.1 ho).2) ?_ hO.redsFirst]
  · rw [hO.reds, hO.sends]
    congr 1
    · rw [← flatMap_filter (fun r => r.involves q) _ _ (fun r _ h => (redMsgs_involves val res p q r).1 h), ← reds_filter]
      have hs := ok.sorted p
      rw [← reds_filter] at hs
      generalize hl : (ops p).filter isRedOp = l at hs ⊢
      have hred : ∀ op ∈ l, isRedOp op = true := by
        intro op ho; rw [← hl] at ho; exact (List.mem_filter.1 ho).2
      clear hl
      induction l with
      | nil => rfl
      | cons op l ih =>
        have := hred op List.mem_cons_self
        cases op with
        | loc => cases this
        | send => cases this
        | recv => cases this
        | red x y ins outs a b =>
          rw [List.filterMap_cons_some (f := rReds) (b := ⟨x, y, ins, outs⟩) rfl] at hs ⊢
          rw [List.flatMap_cons, List.flatMap_cons, ih (fun r hr => hs r (List.mem_cons_of_mem _ hr))
            (fun op ho => hred op (List.mem_cons_of_mem _ ho)),
            red_sends M val res hpq a b (hs _ List.mem_cons_self).2]
    · have e : ((ops p).filterMap (rSends q)) = ((ops p).filter (fun a => kindOf a = .send q)).filterMap (rSends q) := by
        rw [List.filterMap_filter]
        apply List.filterMap_congr
        intro op _
        cases op with
        | send x y a t => by_cases c : t = q <;> simp [kindOf, rSends, c]
        | loc => simp [rSends]
        | recv => simp [rSends]
        | red => simp [rSends]
      rw [e]
      generalize hl : (ops p).filter (fun a => kindOf a = .send q) = l
      have hk : ∀ op ∈ l, kindOf op = .send q := by
        intro op ho; rw [← hl] at ho; simpa using (List.mem_filter.1 ho).2
      clear hl e
      induction l with
      | nil => rfl
      | cons op l ih =>
        have := hk op List.mem_cons_self
        cases op with
        | loc => cases this
        | red => cases this
        | recv => cases this
        | send x y a t =>
          cases this
          rw [List.filterMap_cons_some (b := (x, y)) (by simp [rSends]), List.map_cons, List.flatMap_cons,
            ih (fun op ho => hk op (List.mem_cons_of_mem _ ho))]
          simp [ghostOp, sendKey, GA.act, DAct.kind, GA.msg, DAct.lo, DAct.hi]
  · intro op ho hr hk
    cases op with
    | loc => rfl
    | red => cases hr
    | recv x y a t => simp [ghostOp, sendKey, GA.act, DAct.kind]
    | send x y a t =>
      have : ¬ t = q := fun h => hk (by simp [kindOf, h])
      simp [ghostOp, sendKey, GA.act, DAct.kind, this]

theorem recvKeys {ops : Nat → List ROp} (ok : OpsOK ops) {p q : Nat} (hpq : p ≠ q) {O : List ROp} (hO : Sorted q (ops q) O) :
    (O.flatMap (ghostOp M val res q)).filterMap (fun g : GA A V => recvKey id p (GA.act g)) =
      (((ops q).filterMap rReds).filter (fun r => r.involves p)).flatMap (redMsgs val res p q) ++
      ((ops q).filterMap (rRecvs p)).map (fun xy => (rndEnd, (idxs xy.1 xy.2).map (val p))) := by
  rw [List.filterMap_flatMap, flatMap_split O (.recv p) (by simp) _ (fun op ho => (hO.mem.1 ho).2) ?_ hO.redsFirst]
  · rw [hO.reds, hO.recvs]
    congr 1
    · rw [← flatMap_filter (fun r => r.involves p) _ _ (fun r _ h => (redMsgs_involves val res p q r).2 h), ← reds_filter]
      have hs := ok.sorted q
      rw [← reds_filter] at hs
      generalize hl : (ops q).filter isRedOp = l at hs ⊢
      have hred : ∀ op ∈ l, isRedOp op = true := by
        intro op ho; rw [← hl] at ho; exact (List.mem_filter.1 ho).2
      clear hl
      induction l with
      | nil => rfl
      | cons op l ih =>
        have := hred op List.mem_cons_self
        cases op with
        | loc => cases this
        | send => cases this
        | recv => cases this
        | red x y ins outs a b =>
          rw [List.filterMap_cons_some (f := rReds) (b := ⟨x, y, ins, outs⟩) rfl] at hs ⊢
          rw [List.flatMap_cons, List.flatMap_cons, ih (fun r hr => hs r (List.mem_cons_of_mem _ hr))
            (fun op ho => hred op (List.mem_cons_of_mem _ ho)),
            red_recvs M val res hpq a b (hs _ List.mem_cons_self).1]
    · have e : ((ops q).filterMap (rRecvs p)) = ((ops q).filter (fun a => kindOf a = .recv p)).filterMap (rRecvs p) := by
        rw [List.filterMap_filter]
        apply List.filterMap_congr
        intro op _
        cases op with
        | recv x y a t => by_cases c : t = p <;> simp [kindOf, rRecvs, c]
        | loc => simp [rRecvs]
        | send => simp [rRecvs]
        | red => simp [rRecvs]
      rw [e]
      generalize hl : (ops q).filter (fun a => kindOf a = .recv p) = l
      have hk : ∀ op ∈ l, kindOf op = .recv p := by
        intro op ho; rw [← hl] at ho; simpa using (List.mem_filter.1 ho).2
      clear hl e
      induction l with
      | nil => rfl
      | cons op l ih =>
        have := hk op List.mem_cons_self
        cases op with
        | loc => cases this
        | red => cases this
        | send => cases this
        | recv x y a t =>
          cases this
          rw [List.filterMap_cons_some (b := (x, y)) (by simp [rRecvs]), List.map_cons, List.flatMap_cons,
            ih (fun op ho => hk op (List.mem_cons_of_mem _ ho))]
          simp [ghostOp, recvKey, GA.act, DAct.kind, GA.msg, DAct.lo, DAct.hi]
  · intro op ho hr hk
    cases op with
    | loc => rfl
    | red => cases hr
    | send x y a t => simp [ghostOp, recvKey, GA.act, DAct.kind]
    | recv x y a t =>
      have : ¬ t = p := fun h => hk (by simp [kindOf, h])
      simp [ghostOp, recvKey, GA.act, DAct.kind, this]

end

end Laik.DE
