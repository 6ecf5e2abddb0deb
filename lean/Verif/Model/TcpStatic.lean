import Verif.Model.MpiExists
/-!
# Collectives in the programs of a switch over the MPI backend
-/

namespace Laik.Mp

open Laik.DE Laik.NX

variable {β : Type} {s : MSetup β} {F T : List TR} {skip : Nat → Int → Int → Bool} {prog : Nat → List (CBody β)}
  {m0 : Nat → Nat → β} {val : Nat → Int → List β} {cf : Nat → (Nat → List β) → Nat → List β}

/-- A collective is used for index `i`: all processes have it before, and all or one after the switch. -/
def CollAt (s : MSetup β) (F T : List TR) (i : Int) : Prop :=
  s.useReduce = true ∧ 2 ≤ s.n ∧ (ownersAt F s.n i).length = s.n ∧ ((ownersAt T s.n i).length = s.n ∨ (ownersAt T s.n i).length = 1)

theorem fit_root {c : PCtx β} {F T : List TR} {O : List ROp} (h : OpOK c F T O) {f : FIt Int} (hf : f ∈ c.fits O) {r : Int} {op : Nat}
    (hk : f.key = .red r op) : (∃ i, c.useReduce = true ∧ 2 ≤ c.n ∧ (ownersAt F c.n i).length = c.n ∧
      ((ownersAt T c.n i).length = c.n ∨ (ownersAt T c.n i).length = 1)) ∧ r < c.n := by
  obtain ⟨o, ho, e⟩ := OpOK.mem_fits.1 hf
  obtain ⟨x, y, ins, outs, a, b, rfl, ek, ei⟩ := fit_red e (fun q => ⟨fun h => (by rw [h] at hk; cases hk), fun h => (by rw [h] at hk; cases hk)⟩)
  rw [ek] at hk
  have hn : 0 < c.n := by have := h.me _ ho; omega
  obtain ⟨e0, e2, e3, _⟩ := h.at' _ ho x ⟨Int.le_refl _, h.range _ ho⟩
  have e0 : ins = ownersAt F c.n x := e0
  have e2 : outs = ownersAt T c.n x := e2
  rcases redK_cases c ins outs with ⟨h1, e1⟩ | ⟨h1, e1⟩ | ⟨_, e1⟩
  · rw [e1] at hk; cases hk
    exact ⟨⟨x, h1.1, by omega, by rw [← e0]; exact h1.2.1, Or.inl (by rw [← e2]; exact h1.2.2)⟩, by omega⟩
  · rw [e1] at hk
    cases hk
    refine ⟨⟨x, h1.1, by omega, by rw [← e0]; exact h1.2.1, Or.inr (by rw [← e2]; exact h1.2.2.2)⟩, ?_⟩
    obtain ⟨q, hq⟩ := List.length_eq_one_iff.1 h1.2.2.2
    have : q ∈ ownersAt T c.n x := by rw [← e2, hq]; simp
    have := List.mem_range.1 (List.mem_filter.1 this).1
    rw [hq]
    show (q : Int) < c.n
    omega
  · rw [e1] at hk; cases hk

/-- Parts of a switch. -/
theorem MSwitch.parts (hs : MSwitch s F T skip prog) (hm : MMemOK s F T skip m0 val) (cf : Nat → (Nat → List β) → Nat → List β) :
    ∃ (gs : Nat → List (List Nat)) (O : Nat → List ROp) (B1 B2 B3 : Nat → Nat) (S : Nat → List (CAct β × Nat)) (p2 : Nat → List (CBody β)),
      SwOK s F T gs O B1 ∧ (∀ p, SOK (s.ctx p (gs p)) (s.data F gs O m0 cf p) (B1 p) (B2 p) (B3 p) (s.fs gs O p) (S p)) ∧
      (∀ p, prog p = (S p).map (fun x => x.1.body) ++ p2 p) ∧ (∀ p, ∀ b ∈ p2 p, ∃ op, b = .other op) ∧
      ∀ p i, p ∈ ownersAt T s.n i → ∃ o ∈ O p, (opLo o ≤ i ∧ i < opHi o) ∧ rIsSend o = false := by
  choose Fp Tp ts B1 B2 B3 p1 p2 one using hs.one
  have hT := hs.trans
  have hfit := fun p => (one p).fits hT
  have hO : (fun p => (ts p).res s.n p) = DE.opsOf s.n ts := by
    funext p
    unfold DE.opsOf
    by_cases c : p < s.n
    · rw [if_pos c]
    · rw [if_neg c]
      show List.map _ (ts p).ops = []
      rw [(one p).out (by omega)]
      rfl
  have hops : OpsOK (fun p => (ts p).res s.n p) := by
    rw [hO]
    exact opsOK_of_calculated hT Fp Tp ts (fun p hp => (one p).clc hp)
  have hsok : ∀ p, _ := fun p => (one p).prep.sok (hfit p).2 (hfit p).1.pos (fun x hx => (hfit p).1.used hx)
    (s.data F (fun p => (ts p).groups) (fun p => (ts p).res s.n p) m0 cf p)
  have hsw : SwOK s F T (fun p => (ts p).groups) (fun p => (ts p).res s.n p) B1 :=
    { ok := fun p => (hfit p).1
      ops := hops
      gnodup := fun p g => (one p).canon.nodup g
      cov := fun p => (hsok p).2.2
      sep := hm.sep
      red := hm.red
      neutral := hm.neutral
      buf := fun p x hx => ((hsok p).2.1 x hx).1 }
  have hS := fun p => (hsok p).1
  choose S hS1 hS2 using hS
  refine ⟨_, _, B1, B2, B3, S, p2, hsw, hS1, fun p => by rw [(one p).prog, hS2 p], fun p b hb => ?_, fun p i hp => ?_⟩
  · obtain ⟨op, e, _⟩ := copyLoc_other _ _ (one p).copy _ hb
    exact ⟨op, e⟩
  · exact op_ex hT ((one p).clc (List.mem_range.1 (List.mem_filter.1 hp).1)) hp

/-- Collectives of the programs: only if needed for an index, given reduction, root is a process, same counts. -/
theorem MSwitch.colls (hs : MSwitch s F T skip prog) (hm : MMemOK s F T skip m0 val) (hcf : CollOK s cf) :
    (∀ p i o op a d k, .comm (.gred i o op) a d k ∉ prog p) ∧
    (∀ p (r : Int) op a d k, .comm (.red r op) a d k ∈ prog p → (∃ i, CollAt s F T i) ∧ op = s.redOp ∧ -1 ≤ r ∧ r < s.n) ∧
    (∀ p q (r : Int) op a d k a' d' k', p < s.n → q < s.n → .comm (.red r op) a d k ∈ prog p → .comm (.red r op) a' d' k' ∈ prog q → k = k') := by
  obtain ⟨gs, O, B1, B2, B3, S, p2, hsw, hS, hprog, hp2, _⟩ := hs.parts hm cf
  have key : ∀ p k a d n, .comm k a d n ∈ prog p → ∃ x, x ∈ (s.ctx p (gs p)).comb1 (B3 p)
      ((s.ctx p (gs p)).V3 (s.data F gs O m0 cf p) (B1 p) (B2 p) (s.fs gs O p)) ∧ x.body = .comm k a d n := by
    intro p k a d n hb
    rw [hprog p, List.mem_append] at hb
    rcases hb with hb | hb
    · obtain ⟨x, hx, e⟩ := List.mem_map.1 hb
      exact ⟨x.1, List.fst_mem_of_mem_zipIdx ((hS p).sort.1.subset hx), e⟩
    · obtain ⟨_, e⟩ := hp2 p _ hb
      cases e
  have hpok := fun p => hsw.pok (m0 := m0) hcf p
  have red : ∀ p (r : Int) op a d k, .comm (.red r op) a d k ∈ prog p →
      k = (ixOf (s.fs gs O p) (.red r op)).length ∧ CKey.red r op ∈ (s.fs gs O p).map FIt.key := by
    intro p r op a d k hb
    obtain ⟨x, h1, h2⟩ := key _ _ _ _ _ hb
    exact ((hpok p).comb1_red h1 h2).2
  refine ⟨?_, ?_, ?_⟩
  · intro p i o op a d k hb
    obtain ⟨x, h1, h2⟩ := key _ _ _ _ _ hb
    have := (hpok p).okB (hS p).b2 (fun f hf r op hk => (fit_coll hf hk).2) x h1
    rw [h2] at this
    exact this.2.1 i o op a d k rfl
  · intro p r op a d k hb
    obtain ⟨f, hf, hk⟩ := List.mem_map.1 (red _ _ _ _ _ _ hb).2
    obtain ⟨h1, h2⟩ := fit_coll hf hk
    obtain ⟨h3, h4⟩ := fit_root (hsw.ok p) hf hk
    exact ⟨h3, h1, h2, h4⟩
  · intro p q r op a d k a' d' k' hp hq h1 h2
    rw [(red _ _ _ _ _ _ h1).1, (red _ _ _ _ _ _ h2).1, hsw.redIx hp hq]

/-- If all have an index before, and all or one after the switch, who has it after the switch does a collective
to get values. -/
theorem MSwitch.hasColl (hs : MSwitch s F T skip prog) (hm : MMemOK s F T skip m0 val) (hcf : CollOK s cf) {i : Int}
    (hi : CollAt s F T i) {p : Nat} (hp : p ∈ ownersAt T s.n i) :
    ∃ (r : Int) (a d k : Nat), .comm (.red r s.redOp) a d k ∈ prog p ∧
      r = if (ownersAt T s.n i).length = s.n then -1 else (p : Int) := by
  obtain ⟨hu, hn, hi, ho⟩ := hi
  obtain ⟨gs, O, B1, B2, B3, S, p2, hsw, hS, hprog, _, hex⟩ := hs.parts hm cf
  obtain ⟨o, hoO, hio, hns⟩ := hex p i hp
  have hat := (hsw.ok p).at' o hoO i hio
  have main : ∀ r, CKey.red r s.redOp ∈ (s.fs gs O p).map FIt.key → ∃ a d k, .comm (.red r s.redOp) a d k ∈ prog p := by
    intro r hr
    have h1 := (hsw.pok (m0 := m0) hcf p).redKey_sorted (hS p).sort
    have h2 : (r, s.redOp) ∈ (firsts ((s.fs gs O p).map FIt.key)).filterMap rk :=
      List.mem_filterMap.2 ⟨_, mem_firsts.2 hr, rfl⟩
    rw [← h1] at h2
    obtain ⟨x, hx, e⟩ := List.mem_filterMap.1 h2
    obtain ⟨_, a, d, k, e⟩ := kind_red e
    refine ⟨a, d, k, ?_⟩
    rw [hprog p]
    exact List.mem_append_left _ (List.mem_map.2 ⟨x, hx, e⟩)
  have one : ∀ q, ownersAt F s.n i ≠ [q] := by
    intro q e
    rw [e] at hi
    simp at hi
    omega
  cases o with
  | loc => exact absurd hat.1 (one _)
  | send => cases hns
  | recv => exact absurd hat.1 (one _)
  | red x y ins outs a b =>
    obtain ⟨e1, e2, _⟩ := hat
    have e1 : ins = ownersAt F s.n i := e1
    have e2 : outs = ownersAt T s.n i := e2
    have hmem : (s.ctx p (gs p)).redK ins outs ∈ (s.fs gs O p).map FIt.key :=
      List.mem_map.2 ⟨_, OpOK.mem_fits.2 ⟨_, hoO, rfl⟩, rfl⟩
    rw [← e2] at ho hp ⊢
    rw [← e1] at hi
    rcases redK_cases (s.ctx p (gs p)) ins outs with ⟨h1, ek⟩ | ⟨h1, ek⟩ | ⟨h1, ek⟩
    · rw [ek] at hmem
      obtain ⟨a, d, k, h⟩ := main _ hmem
      exact ⟨-1, a, d, k, h, by rw [if_pos (show outs.length = s.n from h1.2.2)]⟩
    · rw [ek] at hmem
      obtain ⟨a, d, k, h⟩ := main _ hmem
      refine ⟨_, a, d, k, h, ?_⟩
      rw [if_neg (show ¬ outs.length = s.n from h1.2.2.1)]
      obtain ⟨q, hq⟩ := List.length_eq_one_iff.1 h1.2.2.2
      rw [hq] at hp ⊢
      rw [List.mem_singleton.1 hp]
      rfl
    · exact absurd ⟨hu, hi, ho⟩ h1

end Laik.Mp
