import Verif.Model.MpiChain
import Verif.Model.TransGroups
import Verif.Model.Tcp2Cells
/-!
# Actions of the ranges of a transition, before transformations of the MPI backend
-/

namespace Laik.Mp

open Laik.DE

variable {β : Type}

/-- Address of index `x` in a mapping. -/
def PCtx.adr (c : PCtx β) (m : Option (Nat × Int)) (x : Int) : Nat := (m.map (fun m => m.1 + (x - m.2).toNat * c.es)).getD 0

/-- Cells of all indexes. -/
def PCtx.cells (c : PCtx β) : Cells Nat := ⟨fun m i => c.adr (c.fromMap m) i, fun m i => c.adr (c.toMap m) i⟩

/-- A reduction with all processes as input and one or all as output is done by a
collective. -/
def PCtx.redK (c : PCtx β) (ins outs : List Nat) : CKey :=
  if c.useReduce = true ∧ ins.length = c.n then
    if outs.length = c.n then .red (-1) c.redOp
    else if outs.length = 1 then .red (outs.headD 0) c.redOp
    else .gred (groupId c.n c.gs ins) (groupId c.n c.gs outs) c.redOp
  else .gred (groupId c.n c.gs ins) (groupId c.n c.gs outs) c.redOp

/-- Action of an operation. -/
def PCtx.fit (c : PCtx β) : ROp → Option (FIt Int)
  | .loc _ _ _ _ => none
  | .send x y no t => some ⟨.send t, c.adr (c.fromMap no.2) x, 0, idxs x y⟩
  | .recv x y no q => some ⟨.recv q, 0, c.adr (c.toMap no.2) x, idxs x y⟩
  | .red x y ins outs a b => some ⟨c.redK ins outs, (a.map (fun a => c.adr (c.fromMap a.2) x)).getD 0,
      (b.map (fun b => c.adr (c.toMap b.2) x)).getD 0, idxs x y⟩

def rIsRed : ROp → Bool
  | .red _ _ _ _ _ _ => true
  | _ => false

def rIsSend : ROp → Bool
  | .send _ _ _ _ => true
  | _ => false

def rIsRecv : ROp → Bool
  | .recv _ _ _ _ => true
  | _ => false

/-- Order of `laik_aseq_splitTransitionExecs`. -/
def rOrder (O : List ROp) : List ROp := O.filter rIsRed ++ O.filter rIsSend ++ O.filter rIsRecv

def PCtx.fits (c : PCtx β) (O : List ROp) : List (FIt Int) := (rOrder O).filterMap c.fit

/-- The mappings used by an operation include its range. -/
def PCtx.Mapped (c : PCtx β) : ROp → Prop
  | .loc _ _ _ _ => True
  | .send x _ no _ => ∃ m, c.fromMap no.2 = some m ∧ m.2 ≤ x
  | .recv x _ no _ => ∃ m, c.toMap no.2 = some m ∧ m.2 ≤ x
  | .red x _ _ _ a b => (∀ a', a = some a' → ∃ m, c.fromMap a'.2 = some m ∧ m.2 ≤ x) ∧ (∀ b', b = some b' → ∃ m, c.toMap b'.2 = some m ∧ m.2 ≤ x)

theorem addr_adr {c : PCtx β} {m : Option (Nat × Int)} {x : Int} {a : Nat} (h : c.addr m x = some a) : a = c.adr m x ∧ ∃ m', m = some m' ∧ m'.2 ≤ x := by
  unfold PCtx.addr at h
  cases m with
  | none => cases h
  | some m =>
    simp only [Option.bind_some] at h
    split at h
    · rename_i hx
      cases h
      exact ⟨rfl, m, rfl, hx⟩
    · cases h

theorem group_single {c : PCtx β} {o : Int} {r : Nat} (h : transGroup c.n c.gs o = [r]) : (transGroup c.n c.gs o).length = 1 ∧ (transGroup c.n c.gs o).headD 0 = r := by
  rw [h]; exact ⟨rfl, rfl⟩

/-- Replacement by collectives. -/
theorem allRed_key (c : PCtx β) {i o : Int} (hi : CanonId c.n c.gs i) (ho : CanonId c.n c.gs o) (r s d n : Nat) :
    (if c.useReduce then c.allRed ⟨r, .comm (.gred i o c.redOp) s d n⟩ else ⟨r, .comm (.gred i o c.redOp) s d n⟩) =
      ⟨r, .comm (c.redK (transGroup c.n c.gs i) (transGroup c.n c.gs o)) s d n⟩ := by
  have ei := hi.eq
  have eo := ho.eq
  have fi : i = -1 ↔ (transGroup c.n c.gs i).length = c.n := by
    constructor
    · rintro rfl
      unfold transGroup
      rw [if_pos rfl, List.length_range]
    · intro h
      rw [ei]
      unfold groupId
      rw [if_pos h]
  have fo : o = -1 ↔ (transGroup c.n c.gs o).length = c.n := by
    constructor
    · rintro rfl
      unfold transGroup
      rw [if_pos rfl, List.length_range]
    · intro h
      rw [eo]
      unfold groupId
      rw [if_pos h]
  unfold PCtx.redK PCtx.allRed
  rw [← ei, ← eo]
  by_cases cu : c.useReduce = true
  · rw [if_pos cu]
    simp only
    by_cases c1 : i = -1
    · rw [if_pos c1, if_pos (c := c.useReduce = true ∧ (transGroup c.n c.gs i).length = c.n) ⟨cu, fi.1 c1⟩]
      by_cases c2 : o = -1
      · rw [if_pos c2, if_pos (fo.1 c2)]
      · rw [if_neg c2, if_neg (fun h => c2 (fo.2 h))]
        cases hg : transGroup c.n c.gs o with
        | nil => rfl
        | cons t l =>
          cases l with
          | nil => rfl
          | cons t' l => simp
    · rw [if_neg c1, if_neg (fun h => c1 (fi.2 h.2))]
  · rw [if_neg cu, if_neg (fun h => cu h.1)]

/-- Actions after flattening and replacement by collectives, one operation. -/
theorem flatOp_fit {c : PCtx β} {op : TOp} {l : List (CAct β)} (hc : CanonOp c.n c.gs op) (h : c.flatOp op = some l)
    (hs : ∀ y : Int, opHi (op.resolve c.n c.me c.gs) = y → (y - opLo (op.resolve c.n c.me c.gs)).toNat < 2 ^ 32) :
    (if c.useReduce then l.map c.allRed else l) = (c.fit (op.resolve c.n c.me c.gs)).toList.map FIt.act ∧ c.Mapped (op.resolve c.n c.me c.gs) := by
  cases op with
  | loc => cases h; exact ⟨by simp [TOp.resolve, PCtx.fit], trivial⟩
  | send x y no t =>
    obtain ⟨s, hs1, h⟩ := Option.bind_eq_some_iff.1 h
    obtain ⟨rfl, hm⟩ := addr_adr hs1
    have hs' : (y - x).toNat < 2 ^ 32 := hs y rfl
    have hu : u32 (y - x).toNat = (y - x).toNat := by unfold u32; omega
    split at h
    · cases h
      refine ⟨?_, hm⟩
      simp only [List.map_cons, List.map_nil, PCtx.allRed, ite_self]
      rw [hu]
      simp [TOp.resolve, PCtx.fit, FIt.act, FIt.body, idxs_length]
    · cases h
  | recv x y no t =>
    obtain ⟨s, hs1, h⟩ := Option.bind_eq_some_iff.1 h
    obtain ⟨rfl, hm⟩ := addr_adr hs1
    have hs' : (y - x).toNat < 2 ^ 32 := hs y rfl
    have hu : u32 (y - x).toNat = (y - x).toNat := by unfold u32; omega
    split at h
    · cases h
      refine ⟨?_, hm⟩
      simp only [List.map_cons, List.map_nil, PCtx.allRed, ite_self]
      rw [hu]
      simp [TOp.resolve, PCtx.fit, FIt.act, FIt.body, idxs_length]
    · cases h
  | red x y i o a b =>
    obtain ⟨s, hs1, h⟩ := Option.bind_eq_some_iff.1 h
    obtain ⟨d, hs2, h⟩ := Option.bind_eq_some_iff.1 h
    have hs' : (y - x).toNat < 2 ^ 32 := hs y rfl
    have hu : u32 (y - x).toNat = (y - x).toNat := by unfold u32; omega
    split at h
    · cases h
      have k := allRed_key c hc.1 hc.2 1 s d (u32 (y - x).toNat)
      have e1 : ((if c.me ∈ transGroup c.n c.gs i then some a else none).map (fun a => c.adr (c.fromMap a.2) x)).getD 0 = s ∧
          ∀ a', (if c.me ∈ transGroup c.n c.gs i then some a else none) = some a' → ∃ m, c.fromMap a'.2 = some m ∧ m.2 ≤ x := by
        unfold PCtx.addrIf at hs1
        by_cases c1 : c.me ∈ transGroup c.n c.gs i
        · rw [if_pos c1] at hs1 ⊢
          obtain ⟨rfl, hm⟩ := addr_adr hs1
          exact ⟨rfl, fun a' e => by cases e; exact hm⟩
        · rw [if_neg c1] at hs1 ⊢
          cases hs1
          exact ⟨rfl, fun a' e => by cases e⟩
      have e2 : ((if c.me ∈ transGroup c.n c.gs o then some b else none).map (fun b => c.adr (c.toMap b.2) x)).getD 0 = d ∧
          ∀ b', (if c.me ∈ transGroup c.n c.gs o then some b else none) = some b' → ∃ m, c.toMap b'.2 = some m ∧ m.2 ≤ x := by
        unfold PCtx.addrIf at hs2
        by_cases c1 : c.me ∈ transGroup c.n c.gs o
        · rw [if_pos c1] at hs2 ⊢
          obtain ⟨rfl, hm⟩ := addr_adr hs2
          exact ⟨rfl, fun a' e => by cases e; exact hm⟩
        · rw [if_neg c1] at hs2 ⊢
          cases hs2
          exact ⟨rfl, fun a' e => by cases e⟩
      refine ⟨?_, e1.2, e2.2⟩
      have : (if c.useReduce = true then [(⟨1, .comm (.gred i o c.redOp) s d (u32 (y - x).toNat)⟩ : CAct β)].map c.allRed
          else [⟨1, .comm (.gred i o c.redOp) s d (u32 (y - x).toNat)⟩]) =
          [⟨1, .comm (c.redK (transGroup c.n c.gs i) (transGroup c.n c.gs o)) s d (u32 (y - x).toNat)⟩] := by
        rw [← k]
        split <;> rfl
      rw [this, hu]
      simp only [TOp.resolve, PCtx.fit, FIt.act, FIt.body, idxs_length, Option.toList_some, List.map_cons, List.map_nil, e1.1, e2.1]
    · cases h

theorem filter_resolve {n me : Nat} {gs : List (List Nat)} (ops : List TOp) :
    rOrder (ops.map (TOp.resolve n me gs)) = (ops.filter tIsRed ++ ops.filter tIsSend ++ ops.filter tIsRecv).map (TOp.resolve n me gs) := by
  unfold rOrder
  rw [List.map_append, List.map_append, List.filter_map, List.filter_map, List.filter_map]
  have h1 : (fun op => rIsRed (TOp.resolve n me gs op)) = tIsRed := by funext op; cases op <;> rfl
  have h2 : (fun op => rIsSend (TOp.resolve n me gs op)) = tIsSend := by funext op; cases op <;> rfl
  have h3 : (fun op => rIsRecv (TOp.resolve n me gs op)) = tIsRecv := by funext op; cases op <;> rfl
  unfold Function.comp
  rw [h1, h2, h3]

theorem collect_fit {c : PCtx β} (ops : List TOp) : ∀ {l : List (CAct β)}, (∀ op ∈ ops, CanonOp c.n c.gs op) → collect c.flatOp ops = some l →
    (∀ op ∈ ops, (opHi (op.resolve c.n c.me c.gs) - opLo (op.resolve c.n c.me c.gs)).toNat < 2 ^ 32) →
    (if c.useReduce then l.map c.allRed else l) = ((ops.map (TOp.resolve c.n c.me c.gs)).filterMap c.fit).map FIt.act ∧
      ∀ op ∈ ops, c.Mapped (op.resolve c.n c.me c.gs) := by
  induction ops with
  | nil => intro l _ h _; cases h; exact ⟨by simp, fun op ho => by cases ho⟩
  | cons op ops ih =>
    intro l hc h hs
    rw [collect] at h
    obtain ⟨l1, h1, h⟩ := Option.bind_eq_some_iff.1 h
    obtain ⟨l2, h2, rfl⟩ := Option.map_eq_some_iff.1 h
    obtain ⟨e1, m1⟩ := flatOp_fit (hc op List.mem_cons_self) h1 (fun y hy => by rw [← hy]; exact hs op List.mem_cons_self)
    obtain ⟨e2, m2⟩ := ih (fun o ho => hc o (List.mem_cons_of_mem _ ho)) h2 (fun o ho => hs o (List.mem_cons_of_mem _ ho))
    refine ⟨?_, ?_⟩
    · have : (if c.useReduce = true then (l1 ++ l2).map c.allRed else l1 ++ l2) =
          (if c.useReduce = true then l1.map c.allRed else l1) ++ (if c.useReduce = true then l2.map c.allRed else l2) := by
        split <;> simp
      rw [this, e1, e2, List.map_cons, List.filterMap_cons]
      cases c.fit (op.resolve c.n c.me c.gs) <;> rfl
    · intro o ho
      rcases List.mem_cons.1 ho with rfl | ho
      · exact m1
      · exact m2 o ho

/-- Actions of a transition after flattening and replacement by collectives. -/
theorem flat_fits {c : PCtx β} {ops : List TOp} {l : List (CAct β)} (hc : ∀ op ∈ ops, CanonOp c.n c.gs op) (h : c.flat ops = some l)
    (hs : ∀ op ∈ ops, (opHi (op.resolve c.n c.me c.gs) - opLo (op.resolve c.n c.me c.gs)).toNat < 2 ^ 32) :
    (if c.useReduce then l.map c.allRed else l) = (c.fits (ops.map (TOp.resolve c.n c.me c.gs))).map FIt.act ∧
      ∀ op ∈ ops, c.Mapped (op.resolve c.n c.me c.gs) := by
  have hsub : ∀ op ∈ ops.filter tIsRed ++ ops.filter tIsSend ++ ops.filter tIsRecv, op ∈ ops := by
    intro op ho
    simp only [List.mem_append, List.mem_filter] at ho
    tauto
  obtain ⟨h1, h2⟩ := collect_fit _ (fun op ho => hc op (hsub op ho)) h (fun op ho => hs op (hsub op ho))
  refine ⟨?_, ?_⟩
  · rw [h1]
    unfold PCtx.fits
    rw [filter_resolve]
  · intro op ho
    cases op with
    | loc => trivial
    | send x y no t => exact h2 _ (List.mem_append_left _ (List.mem_append_right _ (List.mem_filter.2 ⟨ho, rfl⟩)))
    | recv x y no t => exact h2 _ (List.mem_append_right _ (List.mem_filter.2 ⟨ho, rfl⟩))
    | red x y i o a b => exact h2 _ (List.mem_append_left _ (List.mem_append_left _ (List.mem_filter.2 ⟨ho, rfl⟩)))

end Laik.Mp
