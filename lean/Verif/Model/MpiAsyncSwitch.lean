import Verif.Model.MpiAsyncV3
import Verif.Model.MpiAsyncEnd
import Verif.Model.MpiExists
/-!
# Switch of a 1d container over the MPI backend with asynchronous communication
-/

namespace Laik.Mp

open Laik.DE Laik.NX

variable {β : Type}

/-- All processes `0..n-1` of a group switch from the partitioning with ranges `F`
to that with ranges `T`, with asynchronous communication; process `p` does `prog p`. -/
structure ASwitch (s : MSetup β) (F T : List TR) (skip : Nat → Int → Int → Bool) (prog : Nat → List (AAct β)) : Prop where
  trans : TransOK s.n F T
  run : ∀ p < s.n, ∃ F' T' st, Calculated s.n s.redOp F T p F' T' st ∧
    (s.ctx p st.groups).IsAsyncSwitch ((s.ctx p []).InUse F T) (skip p) st.ops (prog p)
  out : ∀ p, s.n ≤ p → prog p = []

/-- Reduction with these inputs and outputs. -/
def isRedOf (ins outs : List Nat) : ROp → Bool
  | .red _ _ i o _ _ => decide (i = ins ∧ o = outs)
  | _ => false

/-- Input of process `p` for a reduction of `n` processes is sent to other processes
while `p` gets the result. -/
def Exposed (useReduce : Bool) (n p : Nat) (ins outs : List Nat) : Prop :=
  ¬ (useReduce = true ∧ ins.length = n ∧ (outs.length = n ∨ outs.length = 1)) ∧ ins.length ≠ 1 ∧ p ∈ ins ∧ p ∈ outs ∧
    if 8 < ins.length then outs.head? ≠ some p else ∃ q ∈ outs, q ≠ p

/-- For such a reduction in the operations `O` of process `p`, input and result are at
different places, and no other operation has the same inputs and outputs. -/
def NoRace (s : MSetup β) (F T : List TR) (p : Nat) (O : List ROp) : Prop :=
  ∀ x y ins outs a b, ROp.red x y ins outs a b ∈ O → Exposed s.useReduce s.n p ins outs →
    (∀ i, x ≤ i → i < y → (s.ctx p []).cells.src (noAt F p i).2 i ≠ (s.ctx p []).cells.dst (noAt T p i).2 i) ∧
    (O.filter (isRedOf ins outs)).length ≤ 1

variable {c : PCtx β} {F T : List TR} {O : List ROp}

/-- Only one piece for a reduction. -/
theorem one_piece (h : OpOK c F T O) {x y : Int} {ins outs : List Nat} {a b : Option (Int × Int)} (ho : ROp.red x y ins outs a b ∈ O) {gi go : Int} {op : Nat}
    (hk : c.redK ins outs = .gred gi go op) : ((c.V0 (c.fits O)).filter (CAct.same 1 (.gred gi go op))).length ≤ (O.filter (isRedOf ins outs)).length := by
  have hp : ((c.V0 (c.fits O)).filter (CAct.same 1 (.gred gi go op))).length = ((O.filterMap c.fit).filter (fun f => CAct.same (β := β) 1 (.gred gi go op) f.act)).length := by
    unfold PCtx.V0
    rw [List.filter_map, List.length_map]
    exact ((rOrder_perm O c).filter _).length_eq
  rw [hp]
  have hsub : ∀ o ∈ O, ∀ f, c.fit o = some f → CAct.same (β := β) 1 (.gred gi go op) f.act = true → isRedOf ins outs o = true := by
    intro o ho' f hf hs
    have hkey : f.key = .gred gi go op := by
      unfold CAct.same at hs
      simpa [FIt.act, FIt.body] using hs
    obtain ⟨x', y', ins', outs', a', b', rfl, ek, _⟩ := fit_red hf (fun q => ⟨fun h => (by rw [h] at hkey; cases hkey), fun h => (by rw [h] at hkey; cases hkey)⟩)
    rw [ek] at hkey
    obtain ⟨g1, g2⟩ := h.groups _ ho _ _ _ _ _ _ rfl
    obtain ⟨g3, g4⟩ := h.groups _ ho' _ _ _ _ _ _ rfl
    have e1 : ∀ {i o : List Nat}, c.redK i o = .gred gi go op → groupId c.n c.gs i = gi ∧ groupId c.n c.gs o = go := by
      intro i o e
      rcases redK_cases c i o with ⟨_, e'⟩ | ⟨_, e'⟩ | ⟨_, e'⟩
      · rw [e'] at e; cases e
      · rw [e'] at e; cases e
      · rw [e'] at e; cases e; exact ⟨rfl, rfl⟩
    have u1 := e1 hk
    have u2 := e1 hkey
    rw [u1.1] at g1
    rw [u1.2] at g2
    rw [u2.1] at g3
    rw [u2.2] at g4
    show decide (ins' = ins ∧ outs' = outs) = true
    rw [decide_eq_true_eq]
    exact ⟨g3.symm.trans g1, g4.symm.trans g2⟩
  clear hp ho h
  induction O with
  | nil => exact Nat.le_refl _
  | cons o l ih =>
    have ih' := ih (fun o' ho' => hsub o' (List.mem_cons_of_mem _ ho'))
    cases hf : c.fit o with
    | none =>
      rw [List.filterMap_cons_none hf]
      refine Nat.le_trans ih' ?_
      rw [List.filter_cons]
      split
      · exact Nat.le_succ _
      · exact Nat.le_refl _
    | some f =>
      rw [List.filterMap_cons_some hf, List.filter_cons]
      split
      · rename_i hs
        rw [List.filter_cons, if_pos (hsub o List.mem_cons_self f hf hs)]
        exact Nat.succ_le_succ ih'
      · refine Nat.le_trans ih' ?_
        rw [List.filter_cons]
        split
        · exact Nat.le_succ _
        · exact Nat.le_refl _

theorem noOv {s : MSetup β} {p : Nat} {gs : List (List Nat)} (h : OpOK (s.ctx p gs) F T O) (hsep : (s.ctx p []).SepB F T) (hn : NoRace s F T p O) (B1 : Nat) :
    (s.ctx p gs).NoOv ((s.ctx p gs).Ms B1 ((s.ctx p gs).fits O)) := by
  intro a ha gi go op hk hex x hx
  rw [Bool.eq_false_iff]
  intro hw
  obtain ⟨hin, _⟩ := (rd_gred (s.ctx p gs) hk x).1 hx
  obtain ⟨hout, _⟩ := (wr_gred (s.ctx p gs) hk x).1 hw
  obtain ⟨f, hf, ek⟩ := key_inj (Ms_cnt (s.ctx p gs) B1 _ a ha).2
  obtain ⟨o, ho, hfo⟩ := OpOK.mem_fits.1 hf
  rw [hk] at ek
  -- all pieces of this reduction
  have key : ∀ (f : FIt Int) (o : ROp), o ∈ O → (s.ctx p gs).fit o = some f → f.key = .gred gi go op → ∃ x y ins outs a b, o = .red x y ins outs a b ∧
      (s.ctx p gs).redK ins outs = .gred gi go op ∧ Exposed s.useReduce s.n p ins outs := by
    intro f o ho hfo ek
    obtain ⟨x', y', ins', outs', a', b', rfl, ek', _⟩ := fit_red hfo (fun q => ⟨fun h => (by rw [h] at ek; cases ek), fun h => (by rw [h] at ek; cases ek)⟩)
    rw [ek'] at ek
    obtain ⟨g3, g4⟩ := h.groups _ ho _ _ _ _ _ _ rfl
    refine ⟨_, _, _, _, _, _, rfl, ek, ?_⟩
    rcases redK_cases (s.ctx p gs) ins' outs' with ⟨_, e'⟩ | ⟨_, e'⟩ | ⟨hc, e'⟩
    · rw [e'] at ek; cases ek
    · rw [e'] at ek; cases ek
    · rw [e'] at ek
      cases ek
      rw [g3] at hin hex
      rw [g4] at hout hex
      refine ⟨hc, (h.at' _ ho x' ⟨Int.le_refl _, h.range _ ho⟩).2.2.1, hin, hout, ?_⟩
      unfold expo at hex
      by_cases c8 : 8 < ins'.length
      · rw [if_pos ((use3_iff ins').2 c8)] at hex
        rw [if_pos c8]
        intro e
        apply hex
        cases outs' with
        | nil => cases e
        | cons q l => exact (Option.some.inj e).symm
      · rw [if_neg (fun e => c8 ((use3_iff ins').1 e))] at hex
        rw [if_neg c8]
        exact hex
  obtain ⟨x0, y0, ins, outs, a0, b0, rfl, ek0, hexp⟩ := key f o ho hfo ek
  obtain ⟨hpl, hone⟩ := hn _ _ _ _ _ _ ho hexp
  have hlen := one_piece h ho ek0
  obtain ⟨g, zone, h1, _, _⟩ := comb1_cfp (s.ctx p gs) B1 ((s.ctx p gs).V0 ((s.ctx p gs).fits O))
  cases h1 _ (Ms_mem (s.ctx p gs) B1 _ ha) with
  | copyTo r k hg hin hr' ho => obtain ⟨_, ho⟩ := ho; cases ho
  | copyFrom r k hg hin hr' ho => obtain ⟨_, ho⟩ := ho; cases ho
  | comm r k s' n' hg hlen' hr' hb hzz =>
    have hb : (a.body (β := β)) = .comm k s' s' n' := hb
    have e1 : a.key = k := (CBody.comm.inj hb).1
    rw [hk] at e1
    subst e1
    have hr' : 4 = 3 * r + 1 := hr'
    have er : r = 1 := by omega
    subst er
    have : 2 ≤ ((List.filter (CAct.same 1 (CKey.gred gi go op)) ((s.ctx p gs).V0 ((s.ctx p gs).fits O)))).length := hlen'
    omega
  | act b hb hbr hbb hbk =>
    obtain ⟨f', hf', rfl⟩ := List.mem_map.1 hb
    have hbb : (a.body (β := β)) = f'.body := hbb
    have e1 : a.key = f'.key := (CBody.comm.inj hbb).1
    rw [hk] at e1
    obtain ⟨o', ho', hfo'⟩ := OpOK.mem_fits.1 hf'
    obtain ⟨x1, y1, ins1, outs1, a1, b1, rfl, _, hexp1⟩ := key f' o' ho' hfo' e1.symm
    obtain ⟨hpl1, _⟩ := hn _ _ _ _ _ _ ho' hexp1
    rw [hbb] at hx hw
    have hw' : ((s.ctx p gs).env.isOut f'.key && decide (f'.dst ≤ x ∧ x < f'.dst + f'.idx.length * (s.ctx p gs).es)) = true := hw
    rw [Bool.and_eq_true, decide_eq_true_eq] at hw'
    obtain ⟨w1, w2, w3⟩ := hw'
    obtain ⟨r1, r2, r3⟩ := hx
    obtain ⟨j, hj, j1, j2⟩ := byte_elem r2 r3
    obtain ⟨j', hj', j1', j2'⟩ := byte_elem w2 w3
    obtain ⟨s1, s2, s3⟩ := h.src ho' hfo' r1 j _ (List.getElem?_eq_getElem hj)
    obtain ⟨t1, t2, t3⟩ := (h.dst ho' hfo' w1).2 j' _ (List.getElem?_eq_getElem hj')
    have cs := cell_src h s2
    have cd := cell_dst h t2
    rw [← s3] at cs
    rw [← t3] at cd
    rcases hsep _ _ _ _ cs cd with ⟨e, e'⟩ | h6 | h6
    · rw [s3, t3, ← e] at e'
      exact hpl1 _ s1.1 s1.2 e'
    · have h6 : f'.src + j * s.es + s.es ≤ f'.dst + j' * s.es := h6
      have j2 : x < f'.src + j * s.es + s.es := j2
      have j1' : f'.dst + j' * s.es ≤ x := j1'
      omega
    · have h6 : f'.dst + j' * s.es + s.es ≤ f'.src + j * s.es := h6
      have j2 : x < f'.dst + j' * s.es + s.es := j2'
      have j1' : f'.src + j * s.es ≤ x := j1
      omega

/-! ### All processes -/

variable {s : MSetup β} {m0 : Nat → Nat → β} {cf : Nat → (Nat → List β) → Nat → List β} {skip : Nat → Int → Int → Bool}

theorem okB_OkB {c : PCtx β} {b : CBody β} (h : c.okB b) : OkB b := by
  cases b with
  | other op => exact h.1 op rfl
  | comm k s d n =>
    cases k with
    | gred i o op => exact h.2.1 i o op s d n rfl
    | send => trivial
    | recv => trivial
    | red => trivial

/-- Parts of the switch of one process. -/
theorem ASwitch.one {prog : Nat → List (AAct β)} (hs : ASwitch s F T skip prog) (p : Nat) :
    ∃ F' T' ts B1 B2 B3 p1 p2, OneOK s F T (skip p) p F' T' ts B1 B2 B3 p1 p2 (p1 ++ p2) ∧
      prog p = (s.ctx p ts.groups).aprog (numGo 0 p1) ++ p2.map (s.ctx p ts.groups).bexec ∧ (s.n ≤ p → p1 = [] ∧ p2 = []) := by
  by_cases c : p < s.n
  · obtain ⟨F', T', st, hc, B1, B2, B3, ap, p2, h1, h2, h3⟩ := hs.run p c
    obtain ⟨p1, hp1, e⟩ := h1.shape
    refine ⟨F', T', st, B1, B2, B3, p1, p2, ⟨fun _ => hc, hc.canon, fun h => absurd c (by omega), hp1, h2, rfl⟩, ?_, fun h => absurd c (by omega)⟩
    rw [h3, e]
  · refine ⟨[], [], ⟨[], [], false, false, (0, 0), (0, 0), [], []⟩, 0, 0, 0, [], [], ⟨fun h => absurd h c, ?_, fun _ => rfl, prepared_nil _ _, rfl, rfl⟩, ?_, fun _ => ⟨rfl, rfl⟩⟩
    · exact ⟨List.Pairwise.nil, List.Pairwise.nil, fun g hg => (by cases hg), fun op ho => (by cases ho)⟩
    · rw [hs.out p (by omega)]; rfl

/-- The blocking switch followed by the asynchronous one. -/
theorem ASwitch.sim {prog : Nat → List (AAct β)} (hs : ASwitch s F T skip prog) {val : Nat → Int → List β} (hm : MMemOK s F T skip m0 val) (hcf : CollOK s cf)
    (hn : ∀ p < s.n, ∀ F' T' st, Calculated s.n s.redOp F T p F' T' st → NoRace s F T p (st.res s.n p)) :
    ∃ (c : Nat → PCtx β) (P Tl : Nat → List (CBody β)), MSwitch s F T skip (fun p => P p ++ Tl p) ∧ AStatic s.n c P Tl ∧ prog = asyncProg c P Tl ∧
      XState.start (blockProg c P Tl) m0 = s.start (fun p => P p ++ Tl p) m0 := by
  choose Fp Tp ts B1 B2 B3 p1 p2 one hprog hout using hs.one
  have hT := hs.trans
  have hfit := fun p => (one p).fits hT
  have hO : (fun p => (ts p).res s.n p) = DE.opsOf s.n ts := by
    funext p
    unfold DE.opsOf
    by_cases c : p < s.n
    · rw [if_pos c]
    · rw [if_neg c]
      show List.map _ (ts p).ops = []
      rw [(one p).out (by omega)]
      rfl
  have hops : OpsOK (fun p => (ts p).res s.n p) := by
    rw [hO]
    exact opsOK_of_calculated hT Fp Tp ts (fun p hp => (one p).clc hp)
  have hsok : ∀ p, _ := fun p => (one p).prep.sok (hfit p).2 (hfit p).1.pos (fun x hx => (hfit p).1.used hx)
    (s.data F (fun p => (ts p).groups) (fun p => (ts p).res s.n p) m0 cf p)
  have hsw : SwOK s F T (fun p => (ts p).groups) (fun p => (ts p).res s.n p) B1 :=
    { ok := fun p => (hfit p).1
      ops := hops
      gnodup := fun p g => (one p).canon.nodup g
      cov := fun p => (hsok p).2.2
      sep := hm.sep
      red := hm.red
      neutral := hm.neutral
      buf := fun p x hx => ((hsok p).2.1 x hx).1 }
  have hNR : ∀ p, NoRace s F T p ((ts p).res s.n p) := by
    intro p
    by_cases c : p < s.n
    · exact hn p c _ _ _ ((one p).clc c)
    · intro x y ins outs a b ho
      have : (ts p).res s.n p = [] := by
        show List.map _ (ts p).ops = []
        rw [(one p).out (by omega)]
        rfl
      rw [this] at ho
      cases ho
  refine ⟨fun p => s.ctx p (ts p).groups, p1, p2, ⟨hT, ?_, ?_⟩, ⟨?_, ?_, ?_, hout⟩, ?_, ?_⟩
  · intro p hp
    exact ⟨_, _, _, (one p).clc hp, _, _, _, _, _, (one p).prep, (one p).copy, rfl⟩
  · intro p hp
    show p1 p ++ p2 p = []
    rw [(hout p hp).1, (hout p hp).2]
    rfl
  · intro p
    obtain ⟨S, hS, e⟩ := (hsok p).1
    rw [e]
    exact hS.ar (hsw.pok (m0 := m0) hcf p) (noOv (hfit p).1 (hm.sep p) (hNR p) (B1 p))
  · intro p b hb
    obtain ⟨S, hS, e⟩ := (hsok p).1
    rw [e] at hb
    obtain ⟨x, hx, rfl⟩ := List.mem_map.1 hb
    exact okB_OkB ((hsw.pok (m0 := m0) hcf p).okB hS.b2 (fun f hf r op hk => (fit_coll hf hk).2) x.1 (List.fst_mem_of_mem_zipIdx (hS.sort.1.subset hx)))
  · intro p b hb
    exact copyLoc_other _ _ (one p).copy b hb
  · funext p
    exact hprog p
  · unfold MSetup.start
    congr 1

/-- Reachable states: not stuck, and in the end all elements are as expected. -/
theorem ASwitch.inv {prog : Nat → List (AAct β)} (hs : ASwitch s F T skip prog) {val : Nat → Int → List β} (hm : MMemOK s F T skip m0 val) (hcf : CollOK s cf)
    (hn : ∀ p < s.n, ∀ F' T' st, Calculated s.n s.redOp F T p F' T' st → NoRace s F T p (st.res s.n p)) {k : Nat} {A : AState β}
    (h : ASteps s.n cf k (AState.start prog m0) A) : (ADone A ∨ ∃ A', ARStep s.n cf A A') ∧
    (ADone A → ∀ r ∈ T, ∀ i, r.has i → Final s r.task (ownersAt F s.n i) (ownersAt T s.n i) (fun q => val q i)
      (readMem (A.mem r.task) ((s.ctx r.task []).cells.dst r.mapNo i) s.es)) := by
  obtain ⟨c, P, Tl, hms, hst, rfl, hstart⟩ := hs.sim hm hcf hn
  obtain ⟨k', S, Dl, hx, hsim⟩ := sim_reach hst h
  rw [hstart] at hx
  refine ⟨sim_progress hst hx hsim (fun k' S' h' => (hms.inv hm hcf h').1), fun hd => ?_⟩
  obtain ⟨d1, d2⟩ := sim_done hsim hd
  rw [d2]
  exact (hms.inv hm hcf hx).2 d1

/-- For a reduction where inputs of a process are sent to others while it gets the
result: input and result are at different places, and indexes with the same
owners before and after are not separated by any border of a range. -/
def AsyncSafe (s : MSetup β) (F T : List TR) : Prop :=
  ∀ p < s.n, ∀ i, Exposed s.useReduce s.n p (ownersAt F s.n i) (ownersAt T s.n i) →
    (s.ctx p []).cells.src (noAt F p i).2 i ≠ (s.ctx p []).cells.dst (noAt T p i).2 i ∧
    ∀ j, ownersAt F s.n j = ownersAt F s.n i → ownersAt T s.n j = ownersAt T s.n i →
      ∀ r, r ∈ F ∨ r ∈ T → (r.box.lo.x ≤ i ↔ r.box.lo.x ≤ j) ∧ (r.box.hi.x ≤ i ↔ r.box.hi.x ≤ j)

theorem length_le_one {α : Type} {R : α → α → Prop} {l : List α} (h : l.Pairwise R) (hn : ∀ a ∈ l, ∀ b ∈ l, ¬ R a b) : l.length ≤ 1 := by
  match l with
  | [] => exact Nat.zero_le _
  | [_] => exact Nat.le_refl _
  | a :: b :: l => exact absurd ((List.pairwise_cons.1 h).1 b List.mem_cons_self) (hn a List.mem_cons_self b (List.mem_cons_of_mem _ List.mem_cons_self))

theorem AsyncSafe.noRace (h : AsyncSafe s F T) (hT : TransOK s.n F T) {p : Nat} (hp : p < s.n) {F' T' : List TR} {st : TSt}
    (hc : Calculated s.n s.redOp F T p F' T' st) : NoRace s F T p (st.res s.n p) := by
  intro x y ins outs a b ho hexp
  have hat : ∀ {x y a b}, ROp.red x y ins outs a b ∈ st.res s.n p → ∀ i, x ≤ i → i < y → ins = ownersAt F s.n i ∧ outs = ownersAt T s.n i := by
    intro x y a b ho i h1 h2
    obtain ⟨e1, e2, _⟩ := op_at hT hc ho (i := i) ⟨h1, h2⟩
    exact ⟨e1, e2⟩
  refine ⟨fun i h1 h2 => ?_, ?_⟩
  · obtain ⟨e1, e2⟩ := hat ho i h1 h2
    rw [e1, e2] at hexp
    exact (h p hp i hexp).1
  · apply length_le_one ((ops_sep hT hc).filter _)
    have key : ∀ o ∈ (st.res s.n p).filter (isRedOf ins outs), opLo o = x ∧ opLo o < opHi o ∧ noGet o = false := by
      intro o hof
      obtain ⟨ho', hr⟩ := List.mem_filter.1 hof
      clear hof
      cases o with
      | send => cases hr
      | recv => cases hr
      | loc => cases hr
      | red x' y' i' o' a' b' =>
        have hr : decide (i' = ins ∧ o' = outs) = true := hr
        rw [decide_eq_true_eq] at hr
        obtain ⟨rfl, rfl⟩ := hr
        refine ⟨?_, (op_range hT hc ho').1, rfl⟩
        show x' = x
        have r1 : x < y := (op_range hT hc ho).1
        have r2 : x' < y' := (op_range hT hc ho').1
        obtain ⟨e1, e2⟩ := hat ho x (Int.le_refl _) r1
        obtain ⟨e3, e4⟩ := hat ho' x' (Int.le_refl _) r2
        have hb := (h p hp x (by rw [← e1, ← e2]; exact hexp)).2 x' (by rw [← e1, ← e3]) (by rw [← e2, ← e4])
        have cut : ∀ {o : ROp}, o ∈ st.res s.n p → ∃ r, (r ∈ F ∨ r ∈ T) ∧ (r.box.lo.x = opLo o ∨ r.box.hi.x = opLo o) := by
          intro o ho
          obtain ⟨t, ht, _, _, _, e1, _⟩ := op_seg hT hc ho
          obtain ⟨r, hr, e⟩ := (mem_cutsOf F T _).1 ((segs_mem (cutsOf_sorted F T) t).1 ht).1
          rw [e1]
          exact ⟨r, hr, e.imp Eq.symm Eq.symm⟩
        obtain ⟨u, hu, eu⟩ := cut ho
        obtain ⟨v, hv, ev⟩ := cut ho'
        have eu : u.box.lo.x = x ∨ u.box.hi.x = x := eu
        have ev : v.box.lo.x = x' ∨ v.box.hi.x = x' := ev
        have := hb u hu
        have := hb v hv
        omega
    intro o ho1 o' ho2 hc
    obtain ⟨a1, a2, a3⟩ := key o ho1
    obtain ⟨b1, b2, _⟩ := key o' ho2
    rcases hc with hc | hc
    · refine hc x ?_ ?_ <;> (unfold opHas; rw [decide_eq_true_eq]; omega)
    · rw [a3] at hc
      cases hc.1

theorem async_iff (c : PCtx β) (inUse : Nat → Prop) (skip : Int → Int → Bool) (ops : List TOp) :
    (∃ pr, c.IsAsyncSwitch inUse skip ops pr) ↔ ∃ pr, c.IsSwitch inUse skip ops pr := by
  constructor
  · rintro ⟨pr, B1, B2, B3, p1, p2, ⟨l5, s, r, h1, _⟩, h2, _⟩
    exact ⟨_, B1, B2, B3, _, p2, ⟨l5, h1, rfl⟩, h2, rfl⟩
  · rintro ⟨pr, B1, B2, B3, p1, p2, ⟨l5, h1, rfl⟩, h2, _⟩
    obtain ⟨s, r, h3, h4⟩ := sortRounds_some (asyncSeq l5)
    exact ⟨_, B1, B2, B3, _, p2, ⟨l5, s, r, h1, h3, h4, rfl⟩, h2, rfl⟩

theorem aswitch_iff (s : MSetup β) (F T : List TR) (skip : Nat → Int → Int → Bool) :
    (∃ prog, ASwitch s F T skip prog) ↔ ∃ prog, MSwitch s F T skip prog := by
  constructor
  · rintro ⟨_, h1, h2, _⟩
    have one : ∀ p, ∃ pr, p < s.n → ∃ F' T' st, Calculated s.n s.redOp F T p F' T' st ∧
        (s.ctx p st.groups).IsSwitch ((s.ctx p []).InUse F T) (skip p) st.ops pr := by
      intro p
      by_cases hp : p < s.n
      · obtain ⟨F', T', st, hc, hs⟩ := h2 p hp
        obtain ⟨pr, hpr⟩ := (async_iff _ _ _ _).1 ⟨_, hs⟩
        exact ⟨pr, fun _ => ⟨F', T', st, hc, hpr⟩⟩
      · exact ⟨[], fun h => absurd h hp⟩
    choose pr hpr using one
    refine ⟨fun p => if p < s.n then pr p else [], h1, fun p hp => ?_, fun p hp => ?_⟩
    · simp only [if_pos hp]; exact hpr p hp
    · simp only [if_neg (show ¬ p < s.n by omega)]
  · rintro ⟨_, h1, h2, _⟩
    have one : ∀ p, ∃ pr, p < s.n → ∃ F' T' st, Calculated s.n s.redOp F T p F' T' st ∧
        (s.ctx p st.groups).IsAsyncSwitch ((s.ctx p []).InUse F T) (skip p) st.ops pr := by
      intro p
      by_cases hp : p < s.n
      · obtain ⟨F', T', st, hc, hs⟩ := h2 p hp
        obtain ⟨pr, hpr⟩ := (async_iff _ _ _ _).2 ⟨_, hs⟩
        exact ⟨pr, fun _ => ⟨F', T', st, hc, hpr⟩⟩
      · exact ⟨[], fun h => absurd h hp⟩
    choose pr hpr using one
    refine ⟨fun p => if p < s.n then pr p else [], h1, fun p hp => ?_, fun p hp => ?_⟩
    · simp only [if_pos hp]; exact hpr p hp
    · simp only [if_neg (show ¬ p < s.n by omega)]

end Laik.Mp
