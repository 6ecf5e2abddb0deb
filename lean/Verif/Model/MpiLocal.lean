import Verif.Model.MpiJoin
/-!
# Local copies and values after a switch over the MPI backend
-/

namespace Laik.Mp

open Laik.DE

variable {β : Type} {c : PCtx β} {F T : List TR} {O : List ROp}

/-- A copy is left out only between the same cells. -/
def PCtx.SkipOK (c : PCtx β) (F T : List TR) (skip : Int → Int → Bool) : Prop :=
  ∀ i, c.me ∈ ownersAt F c.n i → c.me ∈ ownersAt T c.n i → skip (noAt F c.me i).2 (noAt T c.me i).2 = true →
    c.cells.src (noAt F c.me i).2 i = c.cells.dst (noAt T c.me i).2 i

/-- One copy. -/
theorem OpOK.copy (h : OpOK c F T O) (hsep : c.SepB F T) {skip : Int → Int → Bool} (hskip : c.SkipOK F T skip) {x y : Int} {a b : Int × Int}
    (ho : ROp.loc x y a b ∈ O) {l : List (CBody β)} (hl : c.copyLoc skip (.loc x y a b) = some l) (inp : CKey → Nat → β) (i : Int) (s : MSt CKey β) :
    (¬ (x ≤ i ∧ i < y) → ∀ a, CellOf c.cells F T c.me i a → readMem (runOps (l.map (fun b => b.op c.env inp)) s).mem a c.es = readMem s.mem a c.es) ∧
    (x ≤ i ∧ i < y → readMem (runOps (l.map (fun b => b.op c.env inp)) s).mem (c.cells.dst (noAt T c.me i).2 i) c.es = readMem s.mem (c.cells.src (noAt F c.me i).2 i) c.es ∧
      readMem (runOps (l.map (fun b => b.op c.env inp)) s).mem (c.cells.src (noAt F c.me i).2 i) c.es = readMem s.mem (c.cells.src (noAt F c.me i).2 i) c.es) := by
  have hat := h.at' _ ho
  have hr : x < y := h.range _ ho
  obtain ⟨_, _, ea, eb⟩ := hat x ⟨Int.le_refl _, hr⟩
  have hl : (if skip a.2 b.2 then some [] else
      (c.addr (c.fromMap a.2) x).bind (fun s => (c.addr (c.toMap b.2) x).map (fun d =>
        [CBody.other (copyOp s d ((y - x).toNat * c.es))]))) = some l := hl
  by_cases cs : skip a.2 b.2 = true
  · rw [if_pos cs] at hl
    cases hl
    refine ⟨fun _ _ _ => rfl, fun hi => ?_⟩
    obtain ⟨o1, o2, e1, e2⟩ := hat i hi
    have := hskip i (by rw [o1]; simp) o2 (by rw [← e1, ← e2]; exact cs)
    refine ⟨?_, rfl⟩
    rw [← this]
    rfl
  · rw [if_neg cs] at hl
    obtain ⟨sa, hs, hl⟩ := Option.bind_eq_some_iff.1 hl
    obtain ⟨da, hd, hl⟩ := Option.map_eq_some_iff.1 hl
    subst hl
    obtain ⟨rfl, ms⟩ := addr_adr hs
    obtain ⟨rfl, md⟩ := addr_adr hd
    have hdst : ∀ j : Nat, x + (j : Int) < y → c.adr (c.toMap b.2) x + j * c.es = c.cells.dst (noAt T c.me (x + j)).2 (x + j) ∧
        c.adr (c.fromMap a.2) x + j * c.es = c.cells.src (noAt F c.me (x + j)).2 (x + j) ∧
        CellOf c.cells F T c.me (x + j) (c.cells.dst (noAt T c.me (x + j)).2 (x + j)) ∧
        CellOf c.cells F T c.me (x + j) (c.cells.src (noAt F c.me (x + j)).2 (x + j)) := by
      intro j hj
      obtain ⟨o1, o2, e1, e2⟩ := hat (x + j) ⟨by show x ≤ x + (j : Int); omega, hj⟩
      rw [adr_add md, adr_add ms]
      refine ⟨?_, ?_, cell_dst h o2, cell_src h (by rw [o1]; simp)⟩
      · rw [e2]; rfl
      · rw [e1]; rfl
    have hrun : runOps (List.map (fun b => b.op c.env inp) [CBody.other (copyOp (c.adr (c.fromMap a.2) x) (c.adr (c.toMap b.2) x) ((y - x).toNat * c.es))]) s =
        (copyOp (c.adr (c.fromMap a.2) x) (c.adr (c.toMap b.2) x) ((y - x).toNat * c.es) : MOp CKey β).run s := rfl
    rw [hrun]
    have hmem : ∀ z, ((copyOp (c.adr (c.fromMap a.2) x) (c.adr (c.toMap b.2) x) ((y - x).toNat * c.es) : MOp CKey β).run s).mem z =
        if c.adr (c.toMap b.2) x ≤ z ∧ z < c.adr (c.toMap b.2) x + (y - x).toNat * c.es then s.mem (c.adr (c.fromMap a.2) x + (z - c.adr (c.toMap b.2) x)) else s.mem z := by
      intro z
      rw [run_mem]
      simp only [copyOp, decide_eq_true_eq]
    have hout : ∀ a', (∀ j : Nat, x + (j : Int) < y → a' + c.es ≤ c.cells.dst (noAt T c.me (x + j)).2 (x + j) ∨ c.cells.dst (noAt T c.me (x + j)).2 (x + j) + c.es ≤ a') →
        readMem ((copyOp (c.adr (c.fromMap a.2) x) (c.adr (c.toMap b.2) x) ((y - x).toNat * c.es) : MOp CKey β).run s).mem a' c.es = readMem s.mem a' c.es := by
      intro a' ha'
      apply readMem_congr
      intro t ht
      rw [hmem, if_neg]
      rintro ⟨h1, h2⟩
      obtain ⟨j, hj, h3, h4⟩ := byte_elem h1 h2
      obtain ⟨e1, _⟩ := hdst j (by omega)
      rw [e1] at h3 h4
      rcases ha' j (by omega) with h5 | h5 <;> omega
    constructor
    · intro hi a' ha'
      apply hout
      intro j hj
      obtain ⟨_, _, c1, _⟩ := hdst j hj
      rcases hsep _ _ _ _ ha' c1 with ⟨e, _⟩ | h5 | h5
      · exact absurd ⟨by omega, by omega⟩ hi
      · exact Or.inl h5
      · exact Or.inr h5
    · intro hi
      obtain ⟨j, rfl⟩ : ∃ j : Nat, i = x + (j : Int) := ⟨(i - x).toNat, by omega⟩
      obtain ⟨e1, e2, c1, c2⟩ := hdst j hi.2
      have first : readMem ((copyOp (c.adr (c.fromMap a.2) x) (c.adr (c.toMap b.2) x) ((y - x).toNat * c.es) : MOp CKey β).run s).mem
          (c.cells.dst (noAt T c.me (x + j)).2 (x + j)) c.es = readMem s.mem (c.cells.src (noAt F c.me (x + j)).2 (x + j)) c.es := by
        rw [← e1, ← e2]
        unfold readMem
        apply List.map_congr_left
        intro t ht
        rw [List.mem_range] at ht
        have hle : j * c.es + c.es ≤ (y - x).toNat * c.es := by
          rw [← Nat.succ_mul]
          exact Nat.mul_le_mul_right _ (by omega)
        rw [hmem, if_pos (by omega)]
        congr 1
        omega
      refine ⟨first, ?_⟩
      by_cases ce : c.cells.src (noAt F c.me (x + j)).2 (x + j) = c.cells.dst (noAt T c.me (x + j)).2 (x + j)
      · rw [← ce] at first
        exact first
      · apply hout
        intro j' hj'
        obtain ⟨_, _, c3, _⟩ := hdst j' hj'
        rcases hsep _ _ _ _ c2 c3 with ⟨e, e'⟩ | h5 | h5
        · have : j = j' := by omega
          subst this
          exact absurd e' ce
        · exact Or.inl h5
        · exact Or.inr h5

/-- All copies. -/
theorem OpOK.copies (h : OpOK c F T O) (hsep : c.SepB F T) {skip : Int → Int → Bool} (hskip : c.SkipOK F T skip) (inp : CKey → Nat → β) (i : Int)
    (L : List TOp) (hL : ∀ op ∈ L, op.resolve c.n c.me c.gs ∈ O) : ∀ (p2 : List (CBody β)) (s : MSt CKey β), collect (c.copyLoc skip) L = some p2 →
    ((∀ x y a b, TOp.loc x y a b ∈ L → ¬ (x ≤ i ∧ i < y)) → ∀ a, CellOf c.cells F T c.me i a →
      readMem (runOps (p2.map (fun b => b.op c.env inp)) s).mem a c.es = readMem s.mem a c.es) ∧
    ((∃ x y a b, TOp.loc x y a b ∈ L ∧ x ≤ i ∧ i < y) →
      readMem (runOps (p2.map (fun b => b.op c.env inp)) s).mem (c.cells.dst (noAt T c.me i).2 i) c.es = readMem s.mem (c.cells.src (noAt F c.me i).2 i) c.es) := by
  induction L with
  | nil =>
    intro p2 s hc
    cases hc
    exact ⟨fun _ _ _ => rfl, fun ⟨_, _, _, _, hm, _⟩ => (by cases hm)⟩
  | cons op L ih =>
    intro p2 s hc
    rw [collect] at hc
    obtain ⟨l, hl, hc⟩ := Option.bind_eq_some_iff.1 hc
    obtain ⟨p2', hc', rfl⟩ := Option.map_eq_some_iff.1 hc
    have ih := ih (fun op ho => hL op (List.mem_cons_of_mem _ ho)) p2' (runOps (l.map (fun b => b.op c.env inp)) s) hc'
    rw [List.map_append, runOps_append]
    by_cases cl : ∃ x y a b, op = .loc x y a b
    · obtain ⟨x, y, a, b, rfl⟩ := cl
      obtain ⟨s1, s2⟩ := h.copy hsep hskip (hL _ List.mem_cons_self) hl inp i s
      constructor
      · intro hn a' ha'
        rw [ih.1 (fun x y a b hm => hn x y a b (List.mem_cons_of_mem _ hm)) a' ha', s1 (hn x y a b List.mem_cons_self) a' ha']
      · rintro ⟨x', y', a', b', hm, hi⟩
        by_cases ct : ∃ x y a b, TOp.loc x y a b ∈ L ∧ x ≤ i ∧ i < y
        · rw [ih.2 ct]
          by_cases hx : x ≤ i ∧ i < y
          · exact (s2 hx).2
          · obtain ⟨x2, y2, a2, b2, hm2, hi2⟩ := ct
            obtain ⟨o1, _, _, _⟩ := h.at' _ (hL _ (List.mem_cons_of_mem _ hm2)) i hi2
            exact s1 hx _ (cell_src h (by rw [o1]; simp))
        · have hx : x ≤ i ∧ i < y := by
            rcases List.mem_cons.1 hm with e | hm
            · cases e; exact hi
            · exact absurd ⟨x', y', a', b', hm, hi⟩ ct
          obtain ⟨_, o2, _, _⟩ := h.at' _ (hL _ List.mem_cons_self) i hx
          rw [ih.1 (fun x y a b hm hi => ct ⟨x, y, a, b, hm, hi⟩) _ (cell_dst h o2)]
          exact (s2 hx).1
    · have e : l = [] := by
        cases op with
        | loc x y a b => exact absurd ⟨x, y, a, b, rfl⟩ cl
        | send => cases hl; rfl
        | recv => cases hl; rfl
        | red => cases hl; rfl
      subst e
      constructor
      · intro hn a' ha'
        exact ih.1 (fun x y a b hm => hn x y a b (List.mem_cons_of_mem _ hm)) a' ha'
      · rintro ⟨x', y', a', b', hm, hi⟩
        rcases List.mem_cons.1 hm with rfl | hm
        · exact absurd ⟨_, _, _, _, rfl⟩ cl
        · exact ih.2 ⟨x', y', a', b', hm, hi⟩

theorem copyLoc_other (c : PCtx β) (skip : Int → Int → Bool) {L : List TOp} {p2 : List (CBody β)} (h : collect (c.copyLoc skip) L = some p2) :
    ∀ b ∈ p2, ∃ op, b = .other op ∧ op.key = none := by
  rw [(collect_some h).2]
  intro b hb
  obtain ⟨op, _, hb⟩ := List.mem_flatMap.1 hb
  cases op with
  | loc x y a b' =>
    have hb : b ∈ (if skip a.2 b'.2 then some [] else
      (c.addr (c.fromMap a.2) x).bind (fun s => (c.addr (c.toMap b'.2) x).map (fun d =>
        [CBody.other (copyOp s d ((y - x).toNat * c.es))]))).getD [] := hb
    by_cases cs : skip a.2 b'.2 = true
    · rw [if_pos cs] at hb; cases hb
    · rw [if_neg cs] at hb
      cases e1 : c.addr (c.fromMap a.2) x with
      | none => rw [e1] at hb; cases hb
      | some s =>
        cases e2 : c.addr (c.toMap b'.2) x with
        | none => rw [e1, e2] at hb; cases hb
        | some d =>
          rw [e1, e2] at hb
          rcases List.mem_singleton.1 hb with rfl
          exact ⟨_, rfl, rfl⟩
  | send => cases hb
  | recv => cases hb
  | red => cases hb

/-! ### Combination of values -/

theorem comb_foldl {α : Type} {red : α → α → α} (f : Nat → α) (l : List Nat) : ∀ (A : List α) (a : α), Comb red A a →
    Comb red (A ++ l.map f) (l.foldl (fun a q => red a (f q)) a) := by
  induction l with
  | nil => intro A a h; rw [List.map_nil, List.append_nil]; exact h
  | cons q l ih =>
    intro A a h
    rw [List.foldl_cons, List.map_cons, show A ++ f q :: l.map f = (A ++ [f q]) ++ l.map f by rw [List.append_assoc]; rfl]
    exact ih _ _ (.app h (.one _) (List.Perm.refl _))

theorem Comb.perm {α : Type} {red : α → α → α} {L L' : List α} {a : α} (h : Comb red L a) (hp : L.Perm L') : Comb red L' a := by
  cases h with
  | one v => rw [← List.singleton_perm.1 hp]; exact .one a
  | app ha hb hq => exact .app ha hb (hq.trans hp)

theorem gredVal_comb {red : List β → List β → List β} {neutral : List β} (me : Nat) {ins : List Nat} (hn : ins.Nodup) (hne : ins ≠ []) (f : Nat → List β) :
    Comb red (ins.map f) (gredVal red neutral me ins f) := by
  unfold gredVal
  rw [if_neg hne]
  by_cases c : me ∈ ins
  · rw [if_pos c]
    have := comb_foldl (red := red) f (ins.filter (fun q => q ≠ me)) [f me] (f me) (.one _)
    refine this.perm ?_
    rw [show [f me] ++ (ins.filter (fun q => q ≠ me)).map f = (me :: ins.filter (fun q => q ≠ me)).map f from rfl]
    apply List.Perm.map
    have e : ins.filter (fun q => q ≠ me) = ins.erase me := by
      rw [hn.erase_eq_filter]
      apply List.filter_congr
      intro q _
      rw [Bool.eq_iff_iff]; simp
    rw [e]
    exact (List.perm_cons_erase c).symm
  · rw [if_neg c]
    have e : ins.filter (fun q => q ≠ me) = ins := by
      rw [List.filter_eq_self]
      intro q hq
      have : q ≠ me := by rintro rfl; exact c hq
      simpa using this
    rw [e]
    cases ins with
    | nil => exact absurd rfl hne
    | cons q l => exact comb_foldl (red := red) f l [f q] (f q) (.one _)

end Laik.Mp
