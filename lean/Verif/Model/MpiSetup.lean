import Verif.Spec.Combine
import Verif.Model.MpiCells
/-!
# Actions of all processes in a switch over the MPI backend fit together
-/

namespace Laik.Mp

open Laik.DE

variable {β : Type}

/-- A container and the group of processes using it: number of processes, element
size, reduction of the transition with function and neutral element, `mpi_reduce`
(src/backend-mpi.c 73), and for each process the address and first index of the
mappings of the source and of the target. -/
structure MSetup (β : Type) where
  n : Nat
  es : Nat
  redOp : Nat
  red : List β → List β → List β
  neutral : List β
  useReduce : Bool
  fm : Nat → Int → Option (Nat × Int)
  tm : Nat → Int → Option (Nat × Int)

def MSetup.ctx (s : MSetup β) (p : Nat) (gs : List (List Nat)) : PCtx β :=
  { me := p, n := s.n, es := s.es, gs := gs, fromMap := s.fm p, toMap := s.tm p, redOp := s.redOp, red := s.red, neutral := s.neutral,
    useReduce := s.useReduce }

/-- What is assumed about the collective reductions of MPI: for contributions of the
same length, every process getting the result has the combination of the elements
of all processes. -/
structure CollOK (s : MSetup β) (cf : Nat → (Nat → List β) → Nat → List β) : Prop where
  loc : ∀ k w w' p, (∀ q < s.n, w q = w' q) → cf k w p = cf k w' p
  val : ∀ (root : Int) p w m, p < s.n → root = p ∨ root = -1 → (∀ q < s.n, (w q).length = m * s.es) →
    (cf (collNo root s.redOp) w p).length = m * s.es ∧
    ∀ j < m, Comb s.red ((List.range s.n).map (fun q => slice s.es (w q) j)) (slice s.es (cf (collNo root s.redOp) w p) j)

/-! ### Lists of actions -/

theorem ixOf_append {ι : Type} (A B : List (FIt ι)) (k : CKey) : ixOf (A ++ B) k = ixOf A k ++ ixOf B k := by
  unfold ixOf
  rw [List.filter_append, List.flatMap_append]

theorem ixOf_none {ι : Type} {A : List (FIt ι)} {k : CKey} (h : ∀ f ∈ A, f.key ≠ k) : ixOf A k = [] := by
  unfold ixOf
  rw [List.filter_eq_nil_iff.2 (fun f hf => by simpa using h f hf)]
  rfl

theorem redK_cases (c : PCtx β) (ins outs : List Nat) :
    ((c.useReduce = true ∧ ins.length = c.n ∧ outs.length = c.n) ∧ c.redK ins outs = .red (-1) c.redOp) ∨
    ((c.useReduce = true ∧ ins.length = c.n ∧ outs.length ≠ c.n ∧ outs.length = 1) ∧ c.redK ins outs = .red (outs.headD 0) c.redOp) ∨
    (¬ (c.useReduce = true ∧ ins.length = c.n ∧ (outs.length = c.n ∨ outs.length = 1)) ∧
      c.redK ins outs = .gred (groupId c.n c.gs ins) (groupId c.n c.gs outs) c.redOp) := by
  unfold PCtx.redK
  by_cases cc : c.useReduce = true ∧ ins.length = c.n
  · rw [if_pos cc]
    by_cases c1 : outs.length = c.n
    · rw [if_pos c1]; exact Or.inl ⟨⟨cc.1, cc.2, c1⟩, rfl⟩
    · rw [if_neg c1]
      by_cases c2 : outs.length = 1
      · rw [if_pos c2]; exact Or.inr (Or.inl ⟨⟨cc.1, cc.2, c1, c2⟩, rfl⟩)
      · rw [if_neg c2]; exact Or.inr (Or.inr ⟨fun h => h.2.2.elim c1 c2, rfl⟩)
  · rw [if_neg cc]; exact Or.inr (Or.inr ⟨fun h => cc ⟨h.1, h.2.1⟩, rfl⟩)

theorem redK_ne (c : PCtx β) (ins outs : List Nat) : (∀ q, c.redK ins outs ≠ .send q) ∧ (∀ q, c.redK ins outs ≠ .recv q) := by
  rcases redK_cases c ins outs with ⟨_, e⟩ | ⟨_, e⟩ | ⟨_, e⟩ <;> rw [e] <;> exact ⟨fun q h => (by cases h), fun q h => (by cases h)⟩

section
variable (c : PCtx β)

theorem mem_filter_fit {O : List ROp} {P : ROp → Bool} {f : FIt Int} (hf : f ∈ (O.filter P).filterMap c.fit) : ∃ o ∈ O, P o = true ∧ c.fit o = some f := by
  obtain ⟨o, ho, e⟩ := List.mem_filterMap.1 hf
  rw [List.mem_filter] at ho
  exact ⟨o, ho.1, ho.2, e⟩

theorem fits_append (O : List ROp) : c.fits O = (O.filter rIsRed).filterMap c.fit ++ (O.filter rIsSend).filterMap c.fit ++ (O.filter rIsRecv).filterMap c.fit := by
  unfold PCtx.fits rOrder
  rw [List.filterMap_append, List.filterMap_append]

theorem ixOf_sends (O : List ROp) (q : Nat) : ixOf (c.fits O) (.send q) = (O.filterMap (rSends q)).flatMap (fun s => idxs s.1 s.2) := by
  rw [fits_append, ixOf_append, ixOf_append, ixOf_none (A := (O.filter rIsRed).filterMap c.fit), ixOf_none (A := (O.filter rIsRecv).filterMap c.fit),
    List.nil_append, List.append_nil]
  · induction O with
    | nil => rfl
    | cons o O ih =>
      cases o with
      | loc => exact ih
      | recv => exact ih
      | red => exact ih
      | send x y no t =>
        show ixOf (_ :: _) _ = _
        rw [ixOf_cons, ih, List.filterMap_cons]
        by_cases e : t = q
        · simp [rSends, e]
        · simp [rSends, e]
  · intro f hf
    obtain ⟨o, _, h1, h2⟩ := mem_filter_fit c hf
    cases o with
    | recv => cases h2; intro h; cases h
    | loc => cases h1
    | send => cases h1
    | red => cases h1
  · intro f hf
    obtain ⟨o, _, h1, h2⟩ := mem_filter_fit c hf
    cases o with
    | red => cases h2; exact (redK_ne c _ _).1 q
    | loc => cases h1
    | send => cases h1
    | recv => cases h1

theorem ixOf_recvs (O : List ROp) (q : Nat) : ixOf (c.fits O) (.recv q) = (O.filterMap (rRecvs q)).flatMap (fun s => idxs s.1 s.2) := by
  rw [fits_append, ixOf_append, ixOf_append, ixOf_none (A := (O.filter rIsRed).filterMap c.fit), ixOf_none (A := (O.filter rIsSend).filterMap c.fit),
    List.nil_append, List.nil_append]
  · induction O with
    | nil => rfl
    | cons o O ih =>
      cases o with
      | loc => exact ih
      | send => exact ih
      | red => exact ih
      | recv x y no t =>
        show ixOf (_ :: _) _ = _
        rw [ixOf_cons, ih, List.filterMap_cons]
        by_cases e : t = q
        · simp [rRecvs, e]
        · simp [rRecvs, e]
  · intro f hf
    obtain ⟨o, _, h1, h2⟩ := mem_filter_fit c hf
    cases o with
    | send => cases h2; intro h; cases h
    | loc => cases h1
    | recv => cases h1
    | red => cases h1
  · intro f hf
    obtain ⟨o, _, h1, h2⟩ := mem_filter_fit c hf
    cases o with
    | red => cases h2; exact (redK_ne c _ _).2 q
    | loc => cases h1
    | send => cases h1
    | recv => cases h1

/-- The reduction is done by a collective. -/
def isColl (u : Bool) (n : Nat) (r : RedSpec) : Bool := decide (u = true ∧ r.ins.length = n ∧ (r.outs.length = n ∨ r.outs.length = 1))

def collKey (n redOp : Nat) (r : RedSpec) : CKey := if r.outs.length = n then .red (-1) redOp else .red (r.outs.headD 0) redOp

theorem redK_coll {ins outs : List Nat} {x y : Int} (h : isColl c.useReduce c.n ⟨x, y, ins, outs⟩ = true) :
    c.redK ins outs = collKey c.n c.redOp ⟨x, y, ins, outs⟩ ∧ isRedK (c.redK ins outs) = true ∧ notGred (c.redK ins outs) = true ∧
    ∀ n gs q, inv n gs q (c.redK ins outs) = false := by
  unfold isColl at h
  rw [decide_eq_true_eq] at h
  rcases redK_cases c ins outs with ⟨h1, e⟩ | ⟨h1, e⟩ | ⟨h1, e⟩
  · rw [e]; exact ⟨by unfold collKey; rw [if_pos h1.2.2], rfl, rfl, fun _ _ _ => rfl⟩
  · rw [e]; exact ⟨by unfold collKey; rw [if_neg h1.2.2.1], rfl, rfl, fun _ _ _ => rfl⟩
  · exact absurd h h1

theorem redK_gred {ins outs : List Nat} {x y : Int} (h : isColl c.useReduce c.n ⟨x, y, ins, outs⟩ = false) :
    c.redK ins outs = .gred (groupId c.n c.gs ins) (groupId c.n c.gs outs) c.redOp := by
  unfold isColl at h
  rw [decide_eq_false_iff_not] at h
  rcases redK_cases c ins outs with ⟨h1, e⟩ | ⟨h1, e⟩ | ⟨h1, e⟩
  · exact absurd ⟨h1.1, h1.2.1, Or.inl h1.2.2⟩ h
  · exact absurd ⟨h1.1, h1.2.1, Or.inr h1.2.2.2⟩ h
  · exact e

def GroupsOK (o : ROp) : Prop := ∀ x y ins outs a b, o = .red x y ins outs a b →
    transGroup c.n c.gs (groupId c.n c.gs ins) = ins ∧ transGroup c.n c.gs (groupId c.n c.gs outs) = outs

theorem fits_greds (O : List ROp) (q : Nat) (hg : ∀ o ∈ O, GroupsOK c o) :
    ((c.fits O).filter (fun f => inv c.n c.gs q f.key)).map (fun f => (c.grp f.key, f.idx)) =
      ((O.filterMap rReds).filter (fun r => r.involves q && !isColl c.useReduce c.n r)).map (fun r => ((r.ins, r.outs, c.redOp), idxs r.x r.y)) := by
  rw [fits_append, List.filter_append, List.filter_append]
  have n1 : ((O.filter rIsSend).filterMap c.fit).filter (fun f => inv c.n c.gs q f.key) = [] := by
    rw [List.filter_eq_nil_iff]
    intro f hf
    obtain ⟨o, _, h1, h2⟩ := mem_filter_fit c hf
    cases o with
    | send => cases h2; simp [inv]
    | loc => cases h1
    | recv => cases h1
    | red => cases h1
  have n2 : ((O.filter rIsRecv).filterMap c.fit).filter (fun f => inv c.n c.gs q f.key) = [] := by
    rw [List.filter_eq_nil_iff]
    intro f hf
    obtain ⟨o, _, h1, h2⟩ := mem_filter_fit c hf
    cases o with
    | recv => cases h2; simp [inv]
    | loc => cases h1
    | send => cases h1
    | red => cases h1
  rw [n1, n2, List.append_nil, List.append_nil]
  clear n1 n2
  induction O with
  | nil => rfl
  | cons o O ih =>
    have ih := ih (fun o ho => hg o (List.mem_cons_of_mem _ ho))
    cases o with
    | loc => exact ih
    | send => exact ih
    | recv => exact ih
    | red x y ins outs a b =>
      obtain ⟨g1, g2⟩ := hg _ List.mem_cons_self x y ins outs a b rfl
      rw [List.filter_cons_of_pos (by rfl), List.filterMap_cons_some (by rfl), List.filterMap_cons_some (f := rReds) (by rfl)]
      cases hc : isColl c.useReduce c.n ⟨x, y, ins, outs⟩ with
      | true =>
        rw [List.filter_cons_of_neg (by simp [(redK_coll c hc).2.2.2]), List.filter_cons_of_neg (by simp [hc])]
        exact ih
      | false =>
        have hk := redK_gred c hc
        have hi : inv c.n c.gs q (c.redK ins outs) = RedSpec.involves ⟨x, y, ins, outs⟩ q := by
          rw [hk]
          unfold inv RedSpec.involves
          simp only [g1, g2]
        by_cases ci : RedSpec.involves ⟨x, y, ins, outs⟩ q = true
        · rw [List.filter_cons_of_pos (by rw [hi]; exact ci), List.filter_cons_of_pos (by simp [hc, ci]), List.map_cons, List.map_cons, ih]
          congr 1
          simp only [hk, PCtx.grp, g1, g2]
        · rw [List.filter_cons_of_neg (by rw [hi]; exact ci), List.filter_cons_of_neg (by simp [ci])]
          exact ih

theorem fits_reds (O : List ROp) :
    ((c.fits O).filter (fun f => isRedK f.key)).map (fun f => (f.key, f.idx)) =
      ((O.filterMap rReds).filter (isColl c.useReduce c.n)).map (fun r => (collKey c.n c.redOp r, idxs r.x r.y)) := by
  rw [fits_append, List.filter_append, List.filter_append]
  have n1 : ((O.filter rIsSend).filterMap c.fit).filter (fun f => isRedK f.key) = [] := by
    rw [List.filter_eq_nil_iff]
    intro f hf
    obtain ⟨o, _, h1, h2⟩ := mem_filter_fit c hf
    cases o with
    | send => cases h2; simp [isRedK]
    | loc => cases h1
    | recv => cases h1
    | red => cases h1
  have n2 : ((O.filter rIsRecv).filterMap c.fit).filter (fun f => isRedK f.key) = [] := by
    rw [List.filter_eq_nil_iff]
    intro f hf
    obtain ⟨o, _, h1, h2⟩ := mem_filter_fit c hf
    cases o with
    | recv => cases h2; simp [isRedK]
    | loc => cases h1
    | send => cases h1
    | red => cases h1
  rw [n1, n2, List.append_nil, List.append_nil]
  clear n1 n2
  induction O with
  | nil => rfl
  | cons o O ih =>
    cases o with
    | loc => exact ih
    | send => exact ih
    | recv => exact ih
    | red x y ins outs a b =>
      rw [List.filter_cons_of_pos (by rfl), List.filterMap_cons_some (by rfl), List.filterMap_cons_some (f := rReds) (by rfl)]
      cases hc : isColl c.useReduce c.n ⟨x, y, ins, outs⟩ with
      | true =>
        obtain ⟨k1, k2, _⟩ := redK_coll c hc
        rw [List.filter_cons_of_pos (by exact k2), List.filter_cons_of_pos hc, List.map_cons, List.map_cons, ih]
        congr 1
        rw [k1]
      | false =>
        have hk := redK_gred c hc
        rw [List.filter_cons_of_neg (by simp [hk, isRedK]), List.filter_cons_of_neg (by simp [hc])]
        exact ih

end

end Laik.Mp
