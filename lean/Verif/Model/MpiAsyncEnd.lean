import Verif.Model.MpiAsyncRun
/-!
# Executions with asynchronous communication are not stuck and end
-/

namespace Laik.Mp

open NX

variable {β : Type} {n : Nat} {c : Nat → PCtx β} {P Tl : Nat → List (CBody β)} {cf : Nat → (Nat → List β) → Nat → List β} {A A' : AState β} {S : XState (Nat → β) β}
  {Dl : Nat → Nat → List (AReq × List β)}

/-- Program of a process with asynchronous communication. -/
def asyncProg (c : Nat → PCtx β) (P Tl : Nat → List (CBody β)) (p : Nat) : List (AAct β) := (c p).aprog (numGo 0 (P p)) ++ (Tl p).map (c p).bexec

/-- Blocking program. -/
def blockProg (c : Nat → PCtx β) (P Tl : Nat → List (CBody β)) (p : Nat) : List (XAct (Nat → β) β) := (P p ++ Tl p).map (c p).exec

theorem sim_start (c : Nat → PCtx β) (P Tl : Nat → List (CBody β)) (m0 : Nat → Nat → β) :
    Sim c P Tl (AState.start (asyncProg c P Tl) m0) (XState.start (blockProg c P Tl) m0) (fun _ _ => []) := by
  constructor
  · intro q
    refine ⟨(numGo 0 (P q)).filterMap (irecvR (c q).es), [], numGo 0 (P q), (numGo 0 (P q)).filterMap (isendR (c q).es), Tl q, rfl, ?_, ?_, fun _ => rfl, fun _ => rfl,
      fun _ h => h, fun _ => rfl, fun _ h => h, ?_, ?_, ?_, fun _ _ => rfl⟩
    · show asyncProg c P Tl q = _
      unfold asyncProg PCtx.aprog
      simp only [List.append_assoc]
    · show blockProg c P Tl q = _
      unfold blockProg
      rw [List.map_append]
      congr 1
      conv_lhs => rw [← numGo_snd (P q) 0]
      rw [List.map_map]
      rfl
    · intro q'
      rfl
    · intro r hr; cases hr
    · intro q' y hy; cases hy
  · intro p q
    rfl

theorem XSteps.more {k : Nat} {N : Nat} {M V : Type} {cf : Nat → (Nat → List V) → Nat → List V} {a b b' : XState M V} (h : XSteps N cf k a b) (hs : b' = b ∨ XStep N cf b b') :
    ∃ k', XSteps N cf k' a b' := by
  rcases hs with rfl | hs
  · exact ⟨k, h⟩
  · exact ⟨_, XSteps.snoc h hs⟩

theorem sim_reach (hst : AStatic n c P Tl) {m0 : Nat → Nat → β} {k : Nat} (h : ASteps n cf k (AState.start (asyncProg c P Tl) m0) A) :
    ∃ k' S Dl, XSteps n cf k' (XState.start (blockProg c P Tl) m0) S ∧ Sim c P Tl A S Dl := by
  generalize hA0 : AState.start (asyncProg c P Tl) m0 = A0 at h
  induction h with
  | refl => subst hA0; exact ⟨0, _, _, XSteps.nil _, sim_start c P Tl m0⟩
  | tail h1 hs ih =>
    obtain ⟨k', S, Dl, hx, hsim⟩ := ih hA0
    obtain ⟨S', Dl', h2, h3⟩ := sim_step hst hsim hs
    obtain ⟨k2, hx2⟩ := XSteps.more hx h2
    exact ⟨k2, S', Dl', hx2, h3⟩

/-! ### Running local actions of the blocking program -/

theorem run_locs {N : Nat} {M V : Type} {cf : Nat → (Nat → List V) → Nat → List V} {a : XState M V} (p : Nat) (l : List (XAct M V)) (hl : ∀ x ∈ l, ∃ f, x = .loc f) :
    ∀ {k : Nat} {b : XState M V}, XSteps N cf k a b → b.rem p = l →
    ∃ k' b', XSteps N cf k' a b' ∧ b'.rem = upP b.rem p [] ∧ b'.chan = b.chan := by
  induction l with
  | nil =>
    intro k b h hb
    refine ⟨k, b, h, ?_, rfl⟩
    funext q
    unfold upP
    split
    · rename_i e; rw [e, hb]
    · rfl
  | cons x l ih =>
    intro k b h hb
    obtain ⟨f, rfl⟩ := hl x List.mem_cons_self
    obtain ⟨k', b', h1, h2, h3⟩ := ih (fun x hx => hl x (List.mem_cons_of_mem _ hx)) (XSteps.snoc h (XStep.sync _ _ (XRStep.loc b p f l hb)))
      (by show upP b.rem p l p = l; exact if_pos rfl)
    refine ⟨k', b', h1, ?_, h3⟩
    rw [h2]
    funext q
    simp only [upP]
    split <;> rfl

theorem run_all_locs {N : Nat} {M V : Type} {cf : Nat → (Nat → List V) → Nat → List V} {a : XState M V} {k : Nat} {b : XState M V} (h : XSteps N cf k a b)
    (ok : Nat → Prop) [DecidablePred ok] (hok : ∀ p, ok p → ∀ x ∈ b.rem p, ∃ f, x = .loc f) (m : Nat) :
    ∃ k' b', XSteps N cf k' a b' ∧ b'.rem = (fun p => if p < m ∧ ok p then [] else b.rem p) ∧ b'.chan = b.chan := by
  induction m with
  | zero => exact ⟨k, b, h, by funext p; rw [if_neg (by omega)], rfl⟩
  | succ m ih =>
    obtain ⟨k', b', h1, h2, h3⟩ := ih
    by_cases cm : ok m
    · obtain ⟨k2, b2, e1, e2, e3⟩ := run_locs m (b.rem m) (hok m cm) h1 (by rw [h2]; simp)
      refine ⟨k2, b2, e1, ?_, by rw [e3, h3]⟩
      rw [e2, h2]
      funext p
      unfold upP
      by_cases cp : p = m
      · subst cp; rw [if_pos rfl, if_pos ⟨by omega, cm⟩]
      · rw [if_neg cp]
        beta_reduce
        by_cases cq : p < m ∧ ok p
        · rw [if_pos cq, if_pos ⟨by omega, cq.2⟩]
        · rw [if_neg cq, if_neg (fun h => cq ⟨by omega, h.2⟩)]
    · refine ⟨k', b', h1, ?_, h3⟩
      rw [h2]
      funext p
      by_cases cq : p < m ∧ ok p
      · rw [if_pos cq, if_pos ⟨by omega, cq.2⟩]
      · rw [if_neg cq, if_neg]
        rintro ⟨g1, g2⟩
        apply cq
        refine ⟨?_, g2⟩
        rcases Nat.lt_succ_iff_lt_or_eq.1 g1 with h | h
        · exact h
        · subst h; exact absurd g2 cm

/-! ### Progress -/

theorem filter_first {α : Type} {l : List α} {f : α → Bool} {a : α} {t : List α} (h : l.filter f = a :: t) :
    ∃ l1 l2, l = l1 ++ a :: l2 ∧ (∀ y ∈ l1, f y = false) ∧ f a = true := by
  induction l with
  | nil => cases h
  | cons x l ih =>
    rw [List.filter_cons] at h
    split at h
    · rename_i hx
      cases h
      exact ⟨[], l, rfl, by simp, hx⟩
    · rename_i hx
      obtain ⟨l1, l2, rfl, h1, h2⟩ := ih h
      refine ⟨x :: l1, l2, rfl, ?_, h2⟩
      intro y hy
      rcases List.mem_cons.1 hy with rfl | hy
      · simpa using hx
      · exact h1 y hy

/-- If no execution of the blocking program is stuck, the state is not stuck. -/
theorem sim_progress (hst : AStatic n c P Tl) {a : XState (Nat → β) β} {k : Nat} (hx : XSteps n cf k a S) (h : Sim c P Tl A S Dl)
    (hprog : ∀ k' S', XSteps n cf k' a S' → XDone S' ∨ ∃ S'', XRStep n cf S' S'') : ADone A ∨ ∃ A', ARStep n cf A A' := by
  by_contra hcon
  rw [not_or] at hcon
  obtain ⟨hnd, hns⟩ := hcon
  choose R D U W T hp using h.one
  -- what processes can be doing
  have hR : ∀ p, R p = [] := by
    intro p
    cases hr : R p with
    | nil => rfl
    | cons r R' =>
      have e := (hp p).arem
      rw [hr] at e
      exact absurd ⟨_, ARStep.irecv A p r _ e⟩ hns
  have har : ∀ p, A.rem p = (U p).map (c p).mainA ++ ((W p).map (fun r => .wait r.id) ++ (T p).map (c p).bexec) := by
    intro p
    rw [(hp p).arem, hR p]
    rfl
  have hU : ∀ p x U', U p = x :: U' → (∃ r, irecvR (c p).es x = some r ∧ (c p).exec x.2 = .recv r.peer r.len (fun m vs => writeMem m r.ptr vs) ∧ A.rem p = .wait r.id :: (A.rem p).tail) ∨
      (∃ k out inn, (c p).exec x.2 = .coll k out inn ∧ A.rem p = .coll k out inn :: (A.rem p).tail) := by
    intro p x U' hu
    have e := har p
    rw [hu] at e
    rcases mainA_cases (c p) ((hp p).okB (hst.ok p) (by rw [hu]; exact List.mem_cons_self)) with ⟨op, _, _, e3, _⟩ | ⟨r, _, e3, _⟩ | ⟨r, e1, e3, e4⟩ | ⟨root, op, s, d, m, _, e3, e4, _⟩
    · rw [List.map_cons, e3] at e
      exact absurd ⟨_, ARStep.loc A p _ _ e⟩ hns
    · rw [List.map_cons, e3] at e
      exact absurd ⟨_, ARStep.isend A p _ _ e⟩ hns
    · rw [List.map_cons, e3] at e
      exact Or.inl ⟨r, e1, e4, by rw [e]; rfl⟩
    · rw [List.map_cons, e3] at e
      exact Or.inr ⟨_, _, _, e4, by rw [e]; rfl⟩
  have hTloc : ∀ p, ∀ x ∈ (T p).map (c p).exec, ∃ f, x = .loc f := by
    intro p x hx
    obtain ⟨b, hb, rfl⟩ := List.mem_map.1 hx
    obtain ⟨op, rfl, _⟩ := hst.tl p b ((hp p).hTs b hb)
    exact ⟨_, rfl⟩
  have hTn : ∀ p, U p = [] → W p = [] → T p = [] := by
    intro p h1 h2
    cases ht : T p with
    | nil => rfl
    | cons b T' =>
      obtain ⟨op, rfl, _⟩ := hst.tl p b ((hp p).hTs b (by rw [ht]; exact List.mem_cons_self))
      have e := har p
      rw [h1, h2, ht] at e
      exact absurd ⟨_, ARStep.loc A p _ _ e⟩ hns
  -- run the rest of processes which only wait for sends
  classical
  obtain ⟨k', S', hx', hrem, hchan⟩ := run_all_locs hx (fun p => U p = []) (fun p hu x hxm => hTloc p x (by
    rw [(hp p).srem, hu] at hxm
    exact hxm)) n
  have hrem' : ∀ p, S'.rem p = if U p = [] then [] else S.rem p := by
    intro p
    rw [hrem]
    beta_reduce
    by_cases cu : U p = []
    · rw [if_pos cu]
      by_cases cp : p < n
      · rw [if_pos ⟨cp, cu⟩]
      · rw [if_neg (fun h => cp h.1), (hp p).srem, cu]
        have : T p = [] := by
          apply List.eq_nil_iff_forall_not_mem.2
          intro b hb
          have := (hp p).hTs b hb
          rw [(hst.out p (by omega)).2] at this
          cases this
        rw [this]
        rfl
    · rw [if_neg cu, if_neg (fun h => cu h.2)]
  have hcons : ∀ p a t, S'.rem p = a :: t → ∃ x U', U p = x :: U' ∧ a = (c p).exec x.2 ∧ t = U'.map (fun x => (c p).exec x.2) ++ (T p).map (c p).exec := by
    intro p a t e
    rw [hrem'] at e
    cases hu : U p with
    | nil => rw [hu, if_pos rfl] at e; cases e
    | cons x U' =>
      rw [hu, if_neg (by simp), (hp p).srem, hu, List.map_cons, List.cons_append] at e
      injection e with e1 e2
      exact ⟨x, U', rfl, e1.symm, e2.symm⟩
  rcases hprog k' S' hx' with hd | ⟨S'', hs⟩
  · -- all done: the rest of the waits can be done
    apply hnd
    have hUn : ∀ p, U p = [] := by
      intro p
      cases hu : U p with
      | nil => rfl
      | cons x U' =>
        have e := hd.1 p
        rw [hrem', hu, if_neg (by simp), (hp p).srem, hu] at e
        cases e
    have hch : ∀ p q, S.chan p q = [] := by
      intro p q
      rw [← hchan]
      exact hd.2 p q
    have hc0 : ∀ p, A.chan p = [] := by
      intro p
      apply List.eq_nil_iff_forall_not_mem.2
      intro y hy
      have e := h.chan p y.1
      rw [hch, eq_comm, List.append_eq_nil_iff, List.append_eq_nil_iff] at e
      have := List.filter_eq_nil_iff.1 (List.map_eq_nil_iff.1 e.2.1) y hy
      simp at this
    have hs0 : ∀ p, A.sq p = [] := by
      intro p
      apply List.eq_nil_iff_forall_not_mem.2
      intro y hy
      have e := h.chan p y.peer
      rw [hch, eq_comm, List.append_eq_nil_iff, List.append_eq_nil_iff] at e
      have := List.filter_eq_nil_iff.1 (List.map_eq_nil_iff.1 e.2.2) y hy
      simp at this
    have hr0 : ∀ p, A.rq p = [] := by
      intro p
      have := hp p
      rw [hUn p] at this
      exact this.dl_nil.2.1
    have hW : ∀ p, W p = [] := by
      intro p
      cases hw : W p with
      | nil => rfl
      | cons r W' =>
        have e := har p
        rw [hUn p, hw] at e
        exact absurd ⟨_, ARStep.wait A p r.id _ e (by rw [hs0]; simp) (by rw [hr0]; simp)⟩ hns
    intro p
    refine ⟨?_, hs0 p, hc0 p, hr0 p⟩
    rw [har p, hUn p, hW p, hTn p (hUn p) (hW p)]
    rfl
  · cases hs with
    | loc p f t hh =>
      obtain ⟨x, U', hu, e, _⟩ := hcons p _ _ hh
      rcases hU p x U' hu with ⟨r, _, e2, _⟩ | ⟨k, out, inn, e2, _⟩
      · rw [e2] at e; cases e
      · rw [e2] at e; cases e
    | meet p q m out inn t t' hne hpp hqq hc hl =>
      obtain ⟨x, U', hu, e, _⟩ := hcons p _ _ hpp
      rcases hU p x U' hu with ⟨r, _, e2, _⟩ | ⟨k, out, inn, e2, _⟩
      · rw [e2] at e; cases e
      · rw [e2] at e; cases e
    | recv p q m inn t vs ch hh hc hl =>
      obtain ⟨x, U', hu, e, _⟩ := hcons q _ _ hh
      rcases hU q x U' hu with ⟨r, e1, e2, e3⟩ | ⟨k, out, inn, e2, _⟩
      · rw [e2] at e
        injection e with a1 a2 a3
        subst a1 a2
        rw [hchan, h.chan] at hc
        have h0 := (hp q).recvs r.peer
        rw [hu, List.filterMap_cons_some e1, List.filter_cons, if_pos (by simp), hR q, List.append_nil] at h0
        cases hd : Dl r.peer q with
        | cons y l =>
          -- already delivered
          rw [hd, List.map_cons, List.cons_append] at h0
          injection h0 with h1 h0
          refine hns ⟨_, ARStep.wait A q r.id _ e3 ?_ ?_⟩
          · intro r' hr' e
            obtain ⟨z, hz, hzr⟩ := List.mem_filterMap.1 ((hp q).sends r' hr').2
            have hids := numGo_ids (P q) 0
            rw [(hp q).split, hu, List.pairwise_append] at hids
            have := hids.2.2 z hz x List.mem_cons_self (isendR_some hzr).1
            rw [← (isendR_some hzr).2.2.1, ← (irecvR_some e1).2.2.1] at this
            omega
          · intro r' hr' e
            have hm : y ∈ Dl r.peer q := by rw [hd]; simp
            have hne := (hp q).dl_ne_rq (hst.ar q) (q := r.peer) (y := y) hm (List.mem_append_left _ hr')
            have := ((hp q).recv_disj (hst.ar q) ((hp q).dl_mem (q := r.peer) hm).1 ((hp q).rq_mem hr') hne).2
            rw [← h1, e] at this
            exact this rfl
        | nil =>
          rw [hd, List.map_nil, List.nil_append] at h0
          obtain ⟨r1, r2, hrq, hr1, _⟩ := filter_first h0.symm
          have hr1 : ∀ y ∈ r1, y.peer ≠ r.peer := fun y hy => by simpa using hr1 y hy
          rw [hd, List.map_nil, List.nil_append] at hc
          cases hf : (A.chan r.peer).filter (fun y => decide (y.1 = q)) with
          | cons y l =>
            rw [hf] at hc
            obtain ⟨c1, c2, hch, hc1, hy⟩ := filter_first hf
            have hy : y.1 = q := by simpa using hy
            obtain ⟨y1, y2⟩ := y
            have hy : y1 = q := hy
            subst hy
            have hv : y2 = vs := by
              rw [List.map_cons, List.cons_append] at hc
              injection hc
            refine hns ⟨_, ARStep.deliver A r.peer y1 c1 c2 y2 r1 r r2 hch (fun y hy => by simpa using hc1 y hy) hrq hr1 rfl (by rw [hv]; exact hl)⟩
          | nil =>
            rw [hf, List.map_nil, List.nil_append] at hc
            cases hs : (A.sq r.peer).filter (fun y => decide (y.peer = q)) with
            | nil => rw [hs] at hc; cases hc
            | cons s l =>
              rw [hs, List.map_cons] at hc
              injection hc with hv _
              obtain ⟨s1, s2, hsq, hs1, hsp⟩ := filter_first hs
              refine hns ⟨_, ARStep.meet A r.peer q s1 s s2 r1 r r2 hsq (fun y hy => by simpa using hs1 y hy) (by simpa using hsp) ?_ hrq hr1 rfl ?_⟩
              · intro y hy
                have := List.filter_eq_nil_iff.1 hf y hy
                simpa using this
              · rw [← hv, readMem_length] at hl
                exact hl
      · rw [e2] at e; cases e
    | coll k out inn t hN hh =>
      refine hns ⟨_, ARStep.coll A k out inn (fun p => (A.rem p).tail) hN ?_⟩
      intro p hpn
      obtain ⟨x, U', hu, e, _⟩ := hcons p _ _ (hh p hpn)
      rcases hU p x U' hu with ⟨r, _, e2, _⟩ | ⟨k', out', inn', e2, e3⟩
      · rw [e2] at e; cases e
      · rw [e2] at e
        cases e
        exact e3

/-- At the end, the memory is that of the end of a blocking execution. -/
theorem sim_done (h : Sim c P Tl A S Dl) (hd : ADone A) : XDone S ∧ A.mem = S.mem := by
  choose R D U W T hp using h.one
  have hall : ∀ p, U p = [] ∧ T p = [] := by
    intro p
    have e := (hp p).arem
    rw [(hd p).1, eq_comm, List.append_eq_nil_iff, List.append_eq_nil_iff, List.append_eq_nil_iff] at e
    exact ⟨List.map_eq_nil_iff.1 e.2.1, List.map_eq_nil_iff.1 e.2.2.2⟩
  have hdl : ∀ p, (∀ q, Dl q p = []) ∧ A.mem p = S.mem p := by
    intro p
    have := hp p
    rw [(hall p).1] at this
    exact ⟨this.dl_nil.1, this.dl_nil.2.2.2⟩
  refine ⟨⟨?_, ?_⟩, funext (fun p => (hdl p).2)⟩
  · intro p
    rw [(hp p).srem, (hall p).1, (hall p).2]
    rfl
  · intro p q
    rw [h.chan, (hdl q).1 p, (hd p).2.1, (hd p).2.2.1]
    rfl

/-! ### Number of steps -/

def aw : AAct β → Nat
  | .isend _ => 3
  | _ => 1

def aleft (n : Nat) (A : AState β) : Nat := ((List.range n).map (fun p => ((A.rem p).map aw).sum + 2 * (A.sq p).length + (A.chan p).length)).sum

theorem sum_map_le {l : List Nat} {f g : Nat → Nat} (h : ∀ q ∈ l, g q ≤ f q) : (l.map g).sum ≤ (l.map f).sum := by
  induction l with
  | nil => exact Nat.le_refl _
  | cons x l ih =>
    simp only [List.map_cons, List.sum_cons]
    have := h x List.mem_cons_self
    have := ih (fun q hq => h q (List.mem_cons_of_mem _ hq))
    omega

theorem sum_lt {n p : Nat} {f g : Nat → Nat} (hp : p < n) (hne : ∀ q < n, q ≠ p → g q ≤ f q) (h : g p + 1 ≤ f p) : ((List.range n).map g).sum + 1 ≤ ((List.range n).map f).sum := by
  induction n with
  | zero => omega
  | succ n ih =>
    simp only [List.range_succ, List.map_append, List.sum_append, List.map_cons, List.map_nil, List.sum_cons, List.sum_nil]
    by_cases e : p = n
    · subst e
      have : ((List.range p).map g).sum ≤ ((List.range p).map f).sum := by
        apply sum_map_le
        intro q hq
        rw [List.mem_range] at hq
        exact hne q (by omega) (by omega)
      omega
    · have := ih (by omega) (fun q h1 h2 => hne q (by omega) h2)
      have := hne n (by omega) (Ne.symm e)
      omega

def AOut (n : Nat) (A : AState β) : Prop := ∀ p, n ≤ p → A.rem p = [] ∧ A.sq p = [] ∧ A.chan p = []

theorem aleft_step (h : AOut n A) (hs : AStep n cf A A') : AOut n A' ∧ aleft n A' + 1 ≤ aleft n A := by
  have hp1 : ∀ p a t, A.rem p = a :: t → p < n := fun p a t e => by
    by_contra cp
    rw [(h p (by omega)).1] at e
    cases e
  have hp2 : ∀ p s1 s s2, A.sq p = s1 ++ s :: s2 → p < n := fun p s1 s s2 e => by
    by_contra cp
    rw [(h p (by omega)).2.1] at e
    simp at e
  have hp3 : ∀ p s1 s s2, A.chan p = s1 ++ s :: s2 → p < n := fun p s1 s s2 e => by
    by_contra cp
    rw [(h p (by omega)).2.2] at e
    simp at e
  have aw1 : ∀ a : AAct β, 1 ≤ aw a := by intro a; cases a <;> simp [aw]
  -- steps changing only one process
  have one : ∀ (p : Nat) (A' : AState β), p < n → (∀ q, q ≠ p → A'.rem q = A.rem q ∧ A'.sq q = A.sq q ∧ A'.chan q = A.chan q) →
      ((A'.rem p).map aw).sum + 2 * (A'.sq p).length + (A'.chan p).length + 1 ≤ ((A.rem p).map aw).sum + 2 * (A.sq p).length + (A.chan p).length →
      AOut n A' ∧ aleft n A' + 1 ≤ aleft n A := by
    intro p A' hp hq hlt
    refine ⟨?_, sum_lt hp ?_ hlt⟩
    · intro q hqn
      obtain ⟨e1, e2, e3⟩ := hq q (by omega)
      rw [e1, e2, e3]
      exact h q hqn
    · intro q _ hne
      obtain ⟨e1, e2, e3⟩ := hq q hne
      rw [e1, e2, e3]
  cases hs with
  | take p s1 s s2 hs hs1 =>
    refine one p _ (hp2 _ _ _ _ hs) (fun q hq => ⟨rfl, upP_ne _ _ hq, upP_ne _ _ hq⟩) ?_
    simp only [upP_same, hs, List.length_append, List.length_cons, List.length_nil]
    omega
  | strict hs =>
    cases hs with
    | loc p f t hh =>
      refine one p _ (hp1 _ _ _ hh) (fun q hq => ⟨upP_ne _ _ hq, rfl, rfl⟩) ?_
      simp only [upP_same, hh, List.map_cons, List.sum_cons]
      have := aw1 (AAct.loc f)
      omega
    | isend p r t hh =>
      refine one p _ (hp1 _ _ _ hh) (fun q hq => ⟨upP_ne _ _ hq, upP_ne _ _ hq, rfl⟩) ?_
      simp only [upP_same, hh, List.map_cons, List.sum_cons, aw, List.length_append, List.length_cons, List.length_nil]
      omega
    | irecv p r t hh =>
      refine one p _ (hp1 _ _ _ hh) (fun q hq => ⟨upP_ne _ _ hq, rfl, rfl⟩) ?_
      simp only [upP_same, hh, List.map_cons, List.sum_cons, aw]
      omega
    | wait p id t hh hws hwr =>
      refine one p _ (hp1 _ _ _ hh) (fun q hq => ⟨upP_ne _ _ hq, rfl, rfl⟩) ?_
      simp only [upP_same, hh, List.map_cons, List.sum_cons, aw]
      omega
    | deliver p q c1 c2 vs r1 r r2 hc hc1 hr hr1 hrp hl =>
      refine one p _ (hp3 _ _ _ _ hc) (fun q hq => ⟨rfl, rfl, upP_ne _ _ hq⟩) ?_
      simp only [upP_same, hc, List.length_append, List.length_cons]
      omega
    | meet p q s1 s s2 r1 r r2 hs hs1 hsq hc hr hr1 hrp hl =>
      refine one p _ (hp2 _ _ _ _ hs) (fun q hq => ⟨rfl, upP_ne _ _ hq, rfl⟩) ?_
      simp only [upP_same, hs, List.length_append, List.length_cons]
      omega
    | coll k out inn t hn hh =>
      refine ⟨?_, sum_lt (p := 0) hn ?_ ?_⟩
      · intro q hq
        simp only [if_neg (show ¬ q < n by omega)]
        exact h q hq
      · intro q hq _
        simp only [if_pos hq, hh q hq, List.map_cons, List.sum_cons]
        omega
      · simp only [if_pos hn, hh 0 hn, List.map_cons, List.sum_cons, aw]
        omega

theorem aleft_steps {A0 : AState β} {k : Nat} (h : ASteps n cf k A0 A) (h0 : AOut n A0) : AOut n A ∧ aleft n A + k ≤ aleft n A0 := by
  induction h with
  | refl => exact ⟨h0, Nat.le_refl _⟩
  | tail h1 hs ih =>
    obtain ⟨i1, i2⟩ := ih h0
    obtain ⟨j1, j2⟩ := aleft_step i1 hs
    exact ⟨j1, by omega⟩

theorem aleft_start (prog : Nat → List (AAct β)) (m0 : Nat → Nat → β) : aleft n (AState.start prog m0) ≤ ((List.range n).map (fun p => 3 * (prog p).length)).sum := by
  unfold aleft
  apply sum_map_le
  intro p _
  show ((prog p).map aw).sum + 2 * 0 + 0 ≤ _
  have : ∀ l : List (AAct β), (l.map aw).sum ≤ 3 * l.length := by
    intro l
    induction l with
    | nil => exact Nat.le_refl _
    | cons a l ih =>
      rw [List.map_cons, List.sum_cons, List.length_cons]
      have : aw a ≤ 3 := by cases a <;> simp [aw]
      omega
  have := this (prog p)
  omega

end Laik.Mp
