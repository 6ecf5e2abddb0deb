import Verif.Model.Tcp2Exec
import Verif.Model.DataPointwise
import Verif.Props.Transition
import Verif.Props.ActionSort
/-!
# Lemmas on switches over the TCP2 backend: order and pairs of messages
-/

namespace Laik.DE

/-! ### The sorted sequence -/

theorem split_filter {α : Type} (P : α → Bool) (l : List α) (h : l.Pairwise (fun a b => P b = true → P a = true)) :
    l = l.filter P ++ l.filter (fun a => !P a) := by
  induction l with
  | nil => rfl
  | cons a l ih =>
    rw [List.pairwise_cons] at h
    by_cases c : P a = true
    · rw [List.filter_cons_of_pos c, List.filter_cons_of_neg (by simp [c]), List.cons_append, ← ih h.2]
    · have : ∀ b ∈ l, ¬ P b = true := fun b hb hp => c (h.1 b hb hp)
      rw [List.filter_cons_of_neg c, List.filter_cons_of_pos (by simp [c]),
        List.filter_eq_nil_iff.2 this, List.nil_append, List.filter_eq_self.2]
      intro b hb
      simp [this b hb]

/-- Operations in the order in which they are added. -/
def addOrder (ops : List ROp) : List ROp := ops.filter isRedOp ++ ops.filter isSendOp ++ ops.filter isRecvOp

theorem mem_addOrder (ops : List ROp) (op : ROp) : op ∈ addOrder ops ↔ op ∈ ops ∧ isLoc op = false := by
  unfold addOrder
  simp only [List.mem_append, List.mem_filter]
  cases op <;> simp [isRedOp, isSendOp, isRecvOp, isLoc]

theorem addOrder_filter (ops : List ROp) (Q : ROp → Bool) (R : ROp → Bool)
    (hR : R = isRedOp ∨ R = isSendOp ∨ R = isRecvOp) (hQ : ∀ op, Q op = true → R op = true) :
    (addOrder ops).filter Q = ops.filter Q := by
  have e : ∀ P : ROp → Bool, (ops.filter P).filter Q = ops.filter (fun a => Q a && P a) := by
    intro P
    rw [List.filter_filter]
  unfold addOrder
  rw [List.filter_append, List.filter_append, e, e, e]
  have dis : ∀ (P : ROp → Bool), (∀ a, R a = true → P a = false) → ops.filter (fun a => Q a && P a) = [] := by
    intro P h
    rw [List.filter_eq_nil_iff]
    intro a _ hc
    rw [Bool.and_eq_true] at hc
    rw [h a (hQ a hc.1)] at hc
    exact absurd hc.2 (by simp)
  have same : ops.filter (fun a => Q a && R a) = ops.filter Q := by
    apply List.filter_congr
    intro a _
    cases hq : Q a
    · rfl
    · simp [hQ a hq]
  rcases hR with rfl | rfl | rfl
  · rw [same, dis isSendOp (by intro a; cases a <;> simp [isRedOp, isSendOp]),
      dis isRecvOp (by intro a; cases a <;> simp [isRedOp, isRecvOp])]
    simp
  · rw [same, dis isRedOp (by intro a; cases a <;> simp [isRedOp, isSendOp]),
      dis isRecvOp (by intro a; cases a <;> simp [isSendOp, isRecvOp])]
    simp
  · rw [same, dis isRedOp (by intro a; cases a <;> simp [isRedOp, isRecvOp]),
      dis isSendOp (by intro a; cases a <;> simp [isSendOp, isRecvOp])]
    simp

/-- The order of execution: reductions first, then messages by phase and peer;
operations of the same kind keep their order. -/
structure Sorted (me : Nat) (ops O : List ROp) : Prop where
  perm : O.Perm (addOrder ops)
  kinds : ∀ k, O.filter (fun a => kindOf a = k) = (addOrder ops).filter (fun a => kindOf a = k)
  order : O.Pairwise (fun a b => phase me (kindOf a) < phase me (kindOf b) ∨
    phase me (kindOf a) = phase me (kindOf b) ∧ peer (kindOf a) ≤ peer (kindOf b))

theorem sorted_of_ptrSort {me : Nat} {ops : List ROp} {s : List (Act ROp × Nat)} {r : List (Act ROp)}
    (hs : IsPtrSort (cmp2phase me) (splitExecs ops) s) (hr : sortSeq (splitExecs ops) s = some r) :
    Sorted me ops (r.map (·.content)) := by
  have hes : splitExecs ops = (addOrder ops).map (fun op => ⟨0, kindOf op, op⟩) := rfl
  have her : r.map (·.content) = s.map (·.1.content) := by
    obtain ⟨r', h1, _, _, h2⟩ := sortSeq_reordered (same := samePhase) hs (fun _ _ => cmp2phase_round) (fun _ _ => cmp2phase_pos)
    rw [hr] at h1
    cases h1
    have := congrArg (List.map Prod.snd) h2
    rw [List.map_map, List.map_map] at this
    exact this
  rw [her]
  have hmem : ∀ a ∈ s, a.1.round = 0 ∧ a.1.kind = kindOf a.1.content := by
    intro a ha
    have := List.fst_mem_of_mem_zipIdx (hs.1.subset ha)
    rw [hes] at this
    obtain ⟨op, _, e⟩ := List.mem_map.1 this
    rw [← e]
    exact ⟨rfl, rfl⟩
  have hp : (s.map (·.1.content)).Perm (addOrder ops) := by
    have := hs.1.map (·.1.content)
    have e : (splitExecs ops).zipIdx.map (·.1.content) = addOrder ops := by
      rw [show (fun x : Act ROp × Nat => x.1.content) = (fun a : Act ROp => a.content) ∘ Prod.fst from rfl,
        ← List.map_map, List.zipIdx_map_fst, hes, List.map_map]
      exact List.map_id _
    rwa [e] at this
  refine ⟨hp, ?_, ?_⟩
  · intro k
    have hpw : s.Pairwise (fun a b => a.1.kind = b.1.kind → a.2 < b.2) := by
      refine List.Pairwise.imp_of_mem ?_ (hs.2.and (ptrSort_nodup hs))
      rintro a b ha hb ⟨h1, h2⟩ hk
      exact Nat.lt_of_le_of_ne (cmp2phase_pos h1 (by rw [(hmem a ha).1, (hmem b hb).1]) (Or.inl hk)) h2
    have hz : (splitExecs ops).zipIdx.Pairwise (fun a b => a.1.kind = b.1.kind → a.2 < b.2) := by
      rw [List.pairwise_iff_getElem]
      intro i j hi hj hij
      simp only [List.length_zipIdx] at hi hj
      simpa using fun _ => hij
    have e : s.filter (fun a => a.1.kind = k) = (splitExecs ops).zipIdx.filter (fun a => a.1.kind = k) := by
      refine List.Perm.eq_of_pairwise (le := fun a b : Act ROp × Nat => a.1.kind = b.1.kind → a.2 < b.2)
        ?_ (hpw.sublist List.filter_sublist) (hz.sublist List.filter_sublist) (hs.1.filter _)
      intro a b ha hb h1 h2
      have ka := (List.mem_filter.1 ha).2
      have kb := (List.mem_filter.1 hb).2
      simp only [decide_eq_true_eq] at ka kb
      have := h1 (by rw [ka, kb])
      have := h2 (by rw [ka, kb])
      omega
    have e1 : (s.map (·.1.content)).filter (fun a => kindOf a = k) = (s.filter (fun a => a.1.kind = k)).map (·.1.content) := by
      rw [List.filter_map]
      congr 1
      apply List.filter_congr
      intro a ha
      simp only [Function.comp, (hmem a ha).2]
    have e2 : (addOrder ops).filter (fun a => kindOf a = k) =
        ((splitExecs ops).zipIdx.filter (fun a => a.1.kind = k)).map (·.1.content) := by
      have e3 : (splitExecs ops).filter (fun a => a.kind = k) =
          ((splitExecs ops).zipIdx.filter (fun a => a.1.kind = k)).map (·.1) := by
        conv_lhs => rw [← List.zipIdx_map_fst 0 (splitExecs ops), List.filter_map]
        rfl
      have e4 : ((splitExecs ops).filter (fun a => a.kind = k)).map (·.content) = (addOrder ops).filter (fun a => kindOf a = k) := by
        rw [hes, List.filter_map, List.map_map]
        exact List.map_id _
      rw [← e4, e3, List.map_map]
      rfl
    rw [e1, e2, e]
  · rw [List.pairwise_map]
    refine List.Pairwise.imp_of_mem ?_ hs.2
    intro a b ha hb h
    rw [cmp2phase_le_iff] at h
    rw [← (hmem a ha).2, ← (hmem b hb).2]
    have := (hmem a ha).1
    have := (hmem b hb).1
    omega

theorem phase_red (me : Nat) (op : ROp) (h : isLoc op = false) : isRedOp op = true ↔ phase me (kindOf op) = 0 := by
  cases op with
  | loc => cases h
  | send x y a t => simp only [isRedOp, kindOf, phase]; split <;> simp
  | recv x y a t => simp only [isRedOp, kindOf, phase]; split <;> simp
  | red => simp [isRedOp, kindOf, phase]

theorem phase_nonneg (me : Nat) (k : AKind) : 0 ≤ phase me k := by
  unfold phase
  cases k with
  | other => simp
  | coll c => simp
  | send p => simp only; split <;> decide
  | recv p => simp only; split <;> decide

theorem Sorted.mem {me : Nat} {ops O : List ROp} (h : Sorted me ops O) {op : ROp} :
    op ∈ O ↔ op ∈ ops ∧ isLoc op = false := by
  rw [h.perm.mem_iff, mem_addOrder]

theorem Sorted.redsFirst {me : Nat} {ops O : List ROp} (h : Sorted me ops O) :
    O.Pairwise (fun a b => isRedOp b = true → isRedOp a = true) := by
  refine List.Pairwise.imp_of_mem ?_ h.order
  intro a b ha hb hab hr
  have la := (h.mem.1 ha).2
  have lb := (h.mem.1 hb).2
  rw [phase_red me b lb] at hr
  rw [phase_red me a la]
  have := phase_nonneg me (kindOf a)
  omega

theorem Sorted.reds {me : Nat} {ops O : List ROp} (h : Sorted me ops O) : O.filter isRedOp = ops.filter isRedOp := by
  have e : ∀ l : List ROp, (∀ op ∈ l, isLoc op = false) → l.filter isRedOp = l.filter (fun a => kindOf a = .other) := by
    intro l hl
    apply List.filter_congr
    intro op ho
    have := hl op ho
    cases op <;> simp_all [isRedOp, kindOf, isLoc]
  rw [e O (fun op ho => (h.mem.1 ho).2), h.kinds, ← e (addOrder ops) (fun op ho => ((mem_addOrder _ _).1 ho).2)]
  exact addOrder_filter ops isRedOp isRedOp (Or.inl rfl) (fun _ h => h)

theorem Sorted.sends {me : Nat} {ops O : List ROp} (h : Sorted me ops O) (q : Nat) :
    O.filter (fun a => kindOf a = .send q) = ops.filter (fun a => kindOf a = .send q) := by
  rw [h.kinds]
  refine addOrder_filter ops _ isSendOp (Or.inr (Or.inl rfl)) ?_
  intro op; cases op <;> simp [kindOf, isSendOp]

theorem Sorted.recvs {me : Nat} {ops O : List ROp} (h : Sorted me ops O) (q : Nat) :
    O.filter (fun a => kindOf a = .recv q) = ops.filter (fun a => kindOf a = .recv q) := by
  rw [h.kinds]
  refine addOrder_filter ops _ isRecvOp (Or.inr (Or.inr rfl)) ?_
  intro op; cases op <;> simp [kindOf, isRecvOp]

/-! ### Expected contents -/

variable {A V : Type}

/-- Number of a reduction in the order of all messages. -/
def rnd (x : Int) : Nat := 2 * (x + 2 ^ 30).toNat

/-- Number of all messages after the reductions. -/
def rndEnd : Nat := 2 ^ 33

/-- Receives of the reducing process with expected contents. -/
def ghostRecvs (val : Nat → Int → V) (x y : Int) (dst : Int → A) : Bool → List Nat → List (GA A V)
  | _, [] => []
  | red, t :: ts => (.recv t x y dst red, val t, rnd x) :: ghostRecvs val x y dst true ts

/-- What to expect: `val t i` is the value of process `t` before, `res ins outs x i` the
result of a reduction. -/
def ghostOp (M : Cells A) (val : Nat → Int → V) (res : List Nat → List Nat → Int → V) (me : Nat) : ROp → List (GA A V)
  | .send x y a t => [(.send t x y (M.src a.2), val me, rndEnd)]
  | .recv x y b s => [(.recv s x y (M.dst b.2) false, val s, rndEnd)]
  | .red x y ins outs a b =>
    match outs with
    | [] => []
    | r :: _ =>
      let f := M.src (a.getD (-1, -1)).2
      let t := M.dst (b.getD (-1, -1)).2
      if me ≠ r then
        (if me ∈ ins then [(.send r x y f, val me, rnd x)] else []) ++
          (if me ∈ outs then [(.recv r x y t false, res ins outs, rnd x + 1)] else [])
      else
        (if me ∈ ins then [(.copy x y f t, val me, 0)] else []) ++
          ghostRecvs val x y t (decide (me ∈ ins)) (ins.filter (fun q => q ≠ me)) ++
          (outs.filter (fun q => q ≠ me)).map (fun q => (.send q x y t, res ins outs, rnd x + 1))
  | .loc _ _ _ _ => []

theorem ghostRecvs_fst (val : Nat → Int → V) (x y : Int) (dst : Int → A) (red : Bool) (l : List Nat) :
    (ghostRecvs val x y dst red l).map (·.1) = redRecvs x y dst red l := by
  induction l generalizing red with
  | nil => rfl
  | cons t l ih => simp [ghostRecvs, redRecvs, ih]

theorem ghostOp_fst (M : Cells A) (val : Nat → Int → V) (res : List Nat → List Nat → Int → V) (me : Nat) (op : ROp)
    {l : List (DAct A)} (h : execAct M me op = some l) : (ghostOp M val res me op).map (·.1) = l := by
  cases op with
  | loc => cases h
  | send x y a t => simp only [execAct, Option.some.injEq] at h; rw [← h]; rfl
  | recv x y a t => simp only [execAct, Option.some.injEq] at h; rw [← h]; rfl
  | red x y ins outs a b =>
    simp only [execAct, execReduce] at h
    simp only [ghostOp]
    cases outs with
    | nil => cases h
    | cons r os =>
      simp only [] at h ⊢
      split at h
      · rename_i c
        simp only [Option.some.injEq] at h
        rw [if_pos c, ← h, List.map_append]
        congr 1 <;> split <;> rfl
      · rename_i c
        simp only [Option.some.injEq] at h
        rw [if_neg c, ← h, List.map_append, List.map_append, ghostRecvs_fst, List.map_map]
        congr 2
        split <;> rfl

theorem collect_ghost (M : Cells A) (val : Nat → Int → V) (res : List Nat → List Nat → Int → V) (me : Nat)
    (r : List (Act ROp)) {l : List (DAct A)} (h : collect (fun a => execAct M me a.content) r = some l) :
    l = ((r.map (·.content)).flatMap (ghostOp M val res me)).map (·.1) := by
  obtain ⟨h1, h2⟩ := collect_some h
  rw [h2, List.map_flatMap, List.flatMap_map]
  apply flatMap_congr_mem
  intro a ha
  obtain ⟨la, ea⟩ := h1 a ha
  rw [ea, ghostOp_fst M val res me a.content ea]
  rfl

/-- Local copies with (unused) contents. -/
def ghostCopies (M : Cells A) (skip : Int → Int → Bool) (v : Int → V) (ops : List ROp) : List (GA A V) :=
  (copyOps M skip ops).map (fun a => (a, v, 0))

theorem ghostCopies_fst (M : Cells A) (skip : Int → Int → Bool) (v : Int → V) (ops : List ROp) :
    (ghostCopies M skip v ops).map (·.1) = copyOps M skip ops := by
  unfold ghostCopies
  rw [List.map_map]
  exact List.map_id _

theorem ghostCopies_kind (M : Cells A) (skip : Int → Int → Bool) (v : Int → V) (ops : List ROp) :
    ∀ g ∈ ghostCopies M skip v ops, g.1.kind = .other := by
  intro g hg
  unfold ghostCopies copyOps at hg
  obtain ⟨a, ha, rfl⟩ := List.mem_map.1 hg
  obtain ⟨op, _, e⟩ := List.mem_filterMap.1 ha
  cases op with
  | loc x y a b =>
    simp only [] at e
    split at e
    · cases e
    · simp only [Option.some.injEq] at e; rw [← e]; rfl
  | send => cases e
  | recv => cases e
  | red => cases e

end Laik.DE
