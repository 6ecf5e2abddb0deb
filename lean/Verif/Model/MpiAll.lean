import Verif.Model.MpiNetOK
/-!
# Executions of the prepared programs of all processes
-/

namespace Laik.Mp

variable {β ι : Type}

/-- Number giving the order of messages; `L` are the reductions over all processes. -/
def grnd (L : List (Int × Nat)) (a : CAct β) : Nat :=
  match redKey a.body with
  | some k => 1 + L.idxOf k
  | none => if a.round ≤ 37 then 0 else if a.round ≤ 40 then 1 + L.length else 2 + L.length

theorem idxOf_pairwise {α : Type} [BEq α] [LawfulBEq α] {L : List α} (h : L.Nodup) : L.Pairwise (fun a b => L.idxOf a < L.idxOf b) := by
  rw [List.pairwise_iff_getElem]
  intro i j hi hj hij
  rw [h.idxOf_getElem i hi, h.idxOf_getElem j hj]
  exact hij

theorem grnd_red {L : List (Int × Nat)} {a : CAct β} {k : Int × Nat} (h : redKey a.body = some k) : grnd L a = 1 + L.idxOf k := by
  unfold grnd
  rw [h]

theorem grnd_none {L : List (Int × Nat)} {a : CAct β} (h : redKey a.body = none) (hr : a.round = 37 ∨ a.round = 40 ∨ a.round = 43) :
    (a.round = 37 ∧ grnd L a = 0) ∨ (a.round = 40 ∧ grnd L a = 1 + L.length) ∨ (a.round = 43 ∧ grnd L a = 2 + L.length) := by
  unfold grnd
  rw [h]
  rcases hr with hr | hr | hr <;> simp [hr]

theorem ph_send {me q : Nat} (h : q ≠ me) : (q < me ∧ (if q < me then (3 : Int) else 2) = 3 ∧ (if me < q then 1 else 2) = 2) ∨
    (me < q ∧ (if q < me then (3 : Int) else 2) = 2 ∧ (if me < q then 1 else 2) = 1) := by
  by_cases c : q < me
  · left; rw [if_pos c, if_neg (by omega)]; exact ⟨c, rfl, rfl⟩
  · right; rw [if_neg c, if_pos (by omega)]; exact ⟨by omega, rfl, rfl⟩

theorem ph_recv {me q : Nat} (h : q ≠ me) : (q < me ∧ (if q < me then (1 : Int) else 4) = 1 ∧ (if q < me then 1 else 2) = 1) ∨
    (me < q ∧ (if q < me then (1 : Int) else 4) = 4 ∧ (if q < me then 1 else 2) = 2) := by
  by_cases c : q < me
  · left; rw [if_pos c, if_pos c]; exact ⟨c, rfl, rfl⟩
  · right; rw [if_neg c, if_neg c]; exact ⟨by omega, rfl, rfl⟩

/-- Order of messages. -/
theorem order_sorted {me : Nat} {l : List (CAct β)} {S : List (CAct β × Nat)} (hS : SortOf (cmp2phase me) l S) (L : List (Int × Nat))
    (hL : L.Nodup) (hr : S.filterMap (fun x => redKey x.1.body) = L) (hround : ∀ a ∈ l, ∀ k s d n, a.body = .comm k s d n → a.round = 37 ∨ a.round = 40 ∨ a.round = 43)
    (hred : ∀ a ∈ l, ∀ k, redKey a.body = some k → a.round = 40) (hself : ∀ a ∈ l, ∀ s d n, a.body ≠ .comm (.send me) s d n ∧ a.body ≠ .comm (.recv me) s d n) :
    (S.map (fun x => (grnd L x.1, x.1.body))).Pairwise (fun a b => ∀ ka kb, bkey me a = some ka → bkey me b = some kb → ¬ klt kb ka) := by
  rw [List.pairwise_map]
  have h1 : S.Pairwise (fun a b => ∀ k, redKey a.1.body = some k → ∀ k', redKey b.1.body = some k' → L.idxOf k < L.idxOf k') := by
    have := idxOf_pairwise hL
    conv at this => arg 2; rw [← hr]
    rw [List.pairwise_filterMap] at this
    exact this
  have h2 : S.Pairwise (fun a b => a ∈ S ∧ b ∈ S) := List.pairwise_of_forall_mem_list (fun a ha b hb => ⟨ha, hb⟩)
  refine ((hS.2.and h1).and h2).imp ?_
  rintro a b ⟨⟨hab, hidx⟩, ha, hb⟩ ka kb hka hkb
  have ma : a.1 ∈ l := List.fst_mem_of_mem_zipIdx (hS.1.subset ha)
  have mb : b.1 ∈ l := List.fst_mem_of_mem_zipIdx (hS.1.subset hb)
  rw [cmp2phase_le_iff] at hab
  rw [klt_iff]
  simp only [CAct.toAct] at hab
  have hmem : ∀ k x, x ∈ S → redKey x.1.body = some k → L.idxOf k < L.length := by
    intro k x hx hk
    rw [List.idxOf_lt_length_iff, ← hr]
    exact List.mem_filterMap.2 ⟨x, hx, hk⟩
  cases hba : a.1.body with
  | other => rw [hba] at hka; cases hka
  | comm k s d n =>
    cases hbb : b.1.body with
    | other => rw [hbb] at hkb; cases hkb
    | comm k' s' d' n' =>
      have ra := hround _ ma _ _ _ _ hba
      have rb := hround _ mb _ _ _ _ hbb
      have sa := hself _ ma s d n
      have sb := hself _ mb s' d' n'
      have da := hred _ ma
      have db := hred _ mb
      have ia := fun k => hmem k a ha
      have ib := fun k => hmem k b hb
      rw [hba] at hka hab sa da ia
      rw [hbb] at hkb hab sb db ib
      have hidx' := hidx
      rw [hba, hbb] at hidx'
      cases k with
      | gred => cases hka
      | red r op =>
        simp only [bkey, Option.some.injEq] at hka
        subst hka
        have ga := grnd_red (L := L) (a := a.1) (k := (r, op)) (by rw [hba]; rfl)
        have da := da _ rfl
        have ia := ia _ rfl
        cases k' with
        | gred => cases hkb
        | red r' op' =>
          simp only [bkey, Option.some.injEq] at hkb
          subst hkb
          have gb := grnd_red (L := L) (a := b.1) (k := (r', op')) (by rw [hbb]; rfl)
          have := hidx' _ rfl _ rfl
          simp only
          omega
        | send q' =>
          simp only [bkey, Option.some.injEq] at hkb
          subst hkb
          have gb := grnd_none (L := L) (a := b.1) (by rw [hbb]; rfl) rb
          have sq' : q' ≠ me := by rintro rfl; exact sb.1 rfl
          have hq' := ph_send sq'
          simp only [CBody.kind, phase] at hab
          simp only
          omega
        | recv q' =>
          simp only [bkey, Option.some.injEq] at hkb
          subst hkb
          have gb := grnd_none (L := L) (a := b.1) (by rw [hbb]; rfl) rb
          have sq' : q' ≠ me := by rintro rfl; exact sb.2 rfl
          have hq' := ph_recv sq'
          simp only [CBody.kind, phase] at hab
          simp only
          omega
      | send q =>
        simp only [bkey, Option.some.injEq] at hka
        subst hka
        have ga := grnd_none (L := L) (a := a.1) (by rw [hba]; rfl) ra
        have sq : q ≠ me := by rintro rfl; exact sa.1 rfl
        have hq := ph_send sq
        cases k' with
        | gred => cases hkb
        | red r' op' =>
          simp only [bkey, Option.some.injEq] at hkb
          subst hkb
          have gb := grnd_red (L := L) (a := b.1) (k := (r', op')) (by rw [hbb]; rfl)
          have db := db _ rfl
          simp only [CBody.kind, phase] at hab
          simp only
          omega
        | send q' =>
          simp only [bkey, Option.some.injEq] at hkb
          subst hkb
          have gb := grnd_none (L := L) (a := b.1) (by rw [hbb]; rfl) rb
          have sq' : q' ≠ me := by rintro rfl; exact sb.1 rfl
          have hq' := ph_send sq'
          simp only [CBody.kind, phase, peer] at hab
          simp only
          omega
        | recv q' =>
          simp only [bkey, Option.some.injEq] at hkb
          subst hkb
          have gb := grnd_none (L := L) (a := b.1) (by rw [hbb]; rfl) rb
          have sq' : q' ≠ me := by rintro rfl; exact sb.2 rfl
          have hq' := ph_recv sq'
          simp only [CBody.kind, phase, peer] at hab
          simp only
          omega
      | recv q =>
        simp only [bkey, Option.some.injEq] at hka
        subst hka
        have ga := grnd_none (L := L) (a := a.1) (by rw [hba]; rfl) ra
        have sq : q ≠ me := by rintro rfl; exact sa.2 rfl
        have hq := ph_recv sq
        cases k' with
        | gred => cases hkb
        | red r' op' =>
          simp only [bkey, Option.some.injEq] at hkb
          subst hkb
          have gb := grnd_red (L := L) (a := b.1) (k := (r', op')) (by rw [hbb]; rfl)
          have db := db _ rfl
          simp only [CBody.kind, phase] at hab
          simp only
          omega
        | send q' =>
          simp only [bkey, Option.some.injEq] at hkb
          subst hkb
          have gb := grnd_none (L := L) (a := b.1) (by rw [hbb]; rfl) rb
          have sq' : q' ≠ me := by rintro rfl; exact sb.1 rfl
          have hq' := ph_send sq'
          simp only [CBody.kind, phase, peer] at hab
          simp only
          omega
        | recv q' =>
          simp only [bkey, Option.some.injEq] at hkb
          subst hkb
          have gb := grnd_none (L := L) (a := b.1) (by rw [hbb]; rfl) rb
          have sq' : q' ≠ me := by rintro rfl; exact sb.2 rfl
          have hq' := ph_recv sq'
          simp only [CBody.kind, phase, peer] at hab
          simp only
          omega

variable {c : PCtx β} {M : MData β ι} {del : CKey → ι → List β} {B1 B2 B3 : Nat} {m0 : Nat → β} {F : List (FIt ι)}

theorem POK.C3_key (h : POK c M del B1 m0 F) : ∀ y ∈ c.C3 M B1 B2 F, ∀ k s d n, y.2.2.body = .comm k s d n → notGred k = true := by
  intro y hy k s d n e
  obtain ⟨a, ha, _, hw⟩ := wMs_mem c M 4 (Ms_nodup c B1 F) (C3_mem c M B1 B2 F y hy).1
  cases hg : notGred a.key with
  | true =>
    rw [wM_notGred c M 4 _ hg, List.mem_singleton] at hw
    rw [hw] at e
    simp only [CM.body, CBody.comm.injEq] at e
    rw [← e.1]
    exact hg
  | false =>
    have ⟨i, o, op', hk⟩ : ∃ i o op', a.key = .gred i o op' := by
      cases hk : a.key with
      | gred i o op' => exact ⟨i, o, op', rfl⟩
      | send => rw [hk] at hg; cases hg
      | recv => rw [hk] at hg; cases hg
      | red => rw [hk] at hg; cases hg
    rw [wM_gred c M 4 _ hk] at hw
    rcases (wG_items c _ _ _ _ _ _ _ (h.msOuts a ha i o op' hk) _ _ _ hw).kind with ⟨q, h, _⟩ | ⟨q, t, h, _⟩ | ⟨op, h, _⟩ | ⟨q, h, _⟩ | ⟨q, h, _⟩ <;>
    · rw [e] at h
      cases h <;> rfl

/-- Actions left at the end. -/
theorem POK.okB (h : POK c M del B1 m0 F) (hb : ∀ x, c.buf2 B1 B2 F x → ¬ c.used F x ∧ ¬ c.buf1 B1 F x)
    (hroot : ∀ f ∈ F, ∀ r op, f.key = .red r op → -1 ≤ r) : ∀ a ∈ c.comb1 B3 (c.V3 M B1 B2 F), c.okB a.body := by
  intro a ha
  have hV : ∀ b ∈ c.V3 M B1 B2 F, ∀ op, b.body = .other op → op.key = none := by
    intro b hb' op e
    unfold PCtx.V3 at hb'
    rcases List.mem_append.1 hb' with hb' | hb'
    · rcases List.mem_append.1 hb' with hb' | hb'
      · obtain ⟨x, hx, rfl⟩ := List.mem_map.1 hb'
        obtain ⟨op', e1, e2⟩ := (A1_other c B1 F).1 x hx
        simp only at e
        rw [e1] at e
        cases e
        exact e2
      · obtain ⟨y, hy, rfl⟩ := List.mem_map.1 hb'
        exact wMs_nokey (h.mok hb) 4 y (C3_mem c M B1 B2 F y hy).1 op e
    · obtain ⟨x, hx, rfl⟩ := List.mem_map.1 hb'
      obtain ⟨op', e1, e2⟩ := (A1_other c B1 F).2 x hx
      simp only at e
      rw [e1] at e
      cases e
      exact e2
  refine ⟨fun op e => ?_, fun i o op s d n e => ?_, fun root op s d n e => ?_⟩
  · obtain ⟨b, hb', h1⟩ := comb1_shape c B3 _ a ha
    rcases h1 with ⟨_, h2 | ⟨k, s, n, h2⟩⟩ | ⟨_, op', h2, h3⟩
    · exact hV b hb' op (h2 ▸ e)
    · rw [h2] at e; cases e
    · rw [h2] at e; cases e; exact h3
  · have h1 := (comb1_round ha e).1
    rw [kmsg_comb1] at h1
    obtain ⟨r, hr, _⟩ := List.mem_map.1 h1
    have hr := mem_firsts.1 hr
    rw [kmsg_V3] at hr
    obtain ⟨x, hx, rfl⟩ := List.mem_map.1 hr
    obtain ⟨v, hv, rfl⟩ := List.mem_map.1 hx
    obtain ⟨y, hy, e2⟩ := List.mem_filterMap.1 hv
    obtain ⟨z, hz, rfl⟩ := List.mem_map.1 hy
    unfold wcomm at e2
    split at e2
    · rename_i k' s' d' n' hbody
      split at e2
      · rename_i hk
        have := h.C3_key z hz _ _ _ _ hbody
        rw [hk] at this
        cases this
      · cases e2
    · cases e2
  · obtain ⟨_, _, h3⟩ := h.comb1_red ha e
    obtain ⟨f, hf, e2⟩ := key_inj h3
    exact hroot f hf root op e2

variable {N : Nat} {cf : Nat → (Nat → List β) → Nat → List β} {cs : Nat → PCtx β} {Ms : Nat → MData β ι} {dels : Nat → CKey → ι → List β}
  {B1s B2s B3s : Nat → Nat} {ms0 : Nat → Nat → β} {Fs : Nat → List (FIt ι)}

/-- No messages to oneself. -/
theorem GOK.self (h : GOK N cf cs Ms dels B1s ms0 Fs) (p B2 : Nat) :
    (cs p).sends (Ms p) (B1s p) B2 (Fs p) p = [] ∧ (cs p).recvs (Ms p) (B1s p) B2 (Fs p) p = [] := by
  rw [((h.pok p).msgs (h.groups p) B2 p).1, ((h.pok p).msgs (h.groups p) B2 p).2]
  have h1 : (firsts ((Fs p).map FIt.key)).flatMap (fun k => (cs p).sK (Ms p) p k (ixOf (Fs p) k)) = [] := by
    rw [List.flatMap_eq_nil_iff]
    intro k hk
    obtain ⟨f, hf, rfl⟩ := List.mem_map.1 (mem_firsts.1 hk)
    have hs := (h.nself p f hf).1
    cases hk : f.key with
    | send t =>
      rw [hk] at hs
      simp only [PCtx.sK]
      rw [if_neg]
      rintro rfl
      exact hs rfl
    | recv t => rfl
    | red r op => rfl
    | gred i o op =>
      simp only [PCtx.sK, h.me p]
      rw [if_neg (fun hh => hh.2.1 rfl), if_neg (fun hh => hh.2.2.2 rfl)]
      rfl
  have h2 : (firsts ((Fs p).map FIt.key)).flatMap (fun k => (cs p).rK (Ms p) p k (ixOf (Fs p) k)) = [] := by
    rw [List.flatMap_eq_nil_iff]
    intro k hk
    obtain ⟨f, hf, rfl⟩ := List.mem_map.1 (mem_firsts.1 hk)
    have hs := (h.nself p f hf).2
    cases hk : f.key with
    | recv t =>
      rw [hk] at hs
      simp only [PCtx.rK]
      rw [if_neg]
      rintro rfl
      exact hs rfl
    | send t => rfl
    | red r op => rfl
    | gred i o op =>
      simp only [PCtx.rK, h.me p]
      rw [if_neg (fun hh => hh.2.1 rfl), if_neg (fun hh => hh.2.2.2 rfl)]
      rfl
  rw [h1, h2]
  exact ⟨rfl, rfl⟩

/-- Buffers are separate from other memory, and the last sequence is sorted. -/
structure SOK (c : PCtx β) (M : MData β ι) (B1 B2 B3 : Nat) (F : List (FIt ι)) (S : List (CAct β × Nat)) : Prop where
  b2 : ∀ x, c.buf2 B1 B2 F x → ¬ c.used F x ∧ ¬ c.buf1 B1 F x
  b3 : ∀ x, c.buf3 M B1 B2 B3 F x → ¬ c.used F x ∧ ¬ c.buf1 B1 F x ∧ ¬ c.buf2 B1 B2 F x
  sort : SortOf (cmp2phase c.me) (c.comb1 B3 (c.V3 M B1 B2 F)) S

/-- Program with numbers for the order of messages: `S`, then local actions. -/
def numP (L : List (Int × Nat)) (S : List (CAct β × Nat)) (T : List (CBody β)) : List (Nat × CBody β) :=
  S.map (fun x => (grnd L x.1, x.1.body)) ++ T.map (fun b => (0, b))

theorem numP_others {δ : Type} (g : Nat × CBody β → Option δ) (hg : ∀ n op, g (n, .other op) = none) (L : List (Int × Nat)) (S : List (CAct β × Nat))
    {T : List (CBody β)} (hT : ∀ b ∈ T, ∃ op, b = .other op ∧ op.key = none) :
    (numP L S T).filterMap g = (S.map (fun x => (grnd L x.1, x.1.body))).filterMap g := by
  unfold numP
  rw [List.filterMap_append]
  have : (T.map (fun b => ((0 : Nat), b))).filterMap g = [] := by
    rw [List.filterMap_eq_nil_iff]
    intro x hx
    obtain ⟨b, hb, rfl⟩ := List.mem_map.1 hx
    obtain ⟨op, rfl, _⟩ := hT b hb
    exact hg 0 op
  rw [this, List.append_nil]

theorem others_out (e : CEnv) (inp : CKey → Nat → β) (T : List (CBody β)) (hT : ∀ b ∈ T, ∃ op, b = .other op ∧ op.key = none) : ∀ s k,
    (runOps (T.map (fun b => b.op e inp)) s).out k = s.out k := by
  induction T with
  | nil => intro s k; rfl
  | cons b T ih =>
    intro s k
    rw [List.map_cons, runOps_cons, ih (fun b hb => hT b (List.mem_cons_of_mem _ hb))]
    obtain ⟨op, rfl, h⟩ := hT b List.mem_cons_self
    simp [MOp.run, CBody.op, h]

theorem numP_run (c : PCtx β) (inp : CKey → Nat → β) (L : List (Int × Nat)) (S : List (CAct β × Nat)) (T : List (CBody β)) (s : MSt CKey β) :
    c.runB inp s (numP L S T) = runOps (T.map (fun b => b.op c.env inp)) (runOps ((S.map (·.1)).map (CAct.op c.env inp)) s) := by
  unfold PCtx.runB numP
  rw [List.map_append, runOps_append, List.map_map, List.map_map, List.map_map]
  rfl

/-- Number of messages by round only. -/
def gnum (K r : Nat) : Nat := if r ≤ 37 then 0 else if r ≤ 40 then 1 + K else 2 + K

theorem sizes_numP (c : PCtx β) (L : List (Int × Nat)) (S : List (CAct β × Nat)) {T : List (CBody β)} (hT : ∀ b ∈ T, ∃ op, b = .other op ∧ op.key = none)
    (k : CKey) (hk : rk k = none) : c.sizes k (numP L S T) = (kmsg k (S.map (·.1))).map (fun v => (gnum L.length v.1, v.2 * c.es)) := by
  unfold PCtx.sizes
  rw [numP_others _ (fun _ _ => rfl) L S hT]
  unfold kmsg
  rw [List.filterMap_map, List.filterMap_map, List.map_filterMap]
  apply List.filterMap_congr
  intro x _
  simp only [Function.comp]
  cases hb : x.1.body with
  | other => rfl
  | comm k' s d n =>
    by_cases c1 : k' = k
    · subst c1
      have : grnd L x.1 = gnum L.length x.1.round := by
        unfold grnd gnum
        rw [hb, redKey_rk, hk]
      simp [this]
    · simp [c1]

theorem GOK.reds' (h : GOK N cf cs Ms dels B1s ms0 Fs) {p q : Nat} (hp : p < N) (hq : q < N) :
    (firsts ((Fs p).map FIt.key)).filterMap rk = (firsts ((Fs q).map FIt.key)).filterMap rk ∧
    ∀ r op, ixOf (Fs p) (.red r op) = ixOf (Fs q) (.red r op) := by
  have key : ∀ l : List CKey, l.filterMap rk = (l.filter isRedK).filterMap rk := by
    intro l
    rw [List.filterMap_filter]
    apply List.filterMap_congr
    intro k _
    cases k <;> simp [isRedK, rk]
  have hr := h.reds p hp q hq
  refine ⟨?_, fun r op => ?_⟩
  · rw [key, key (firsts ((Fs q).map FIt.key)), firsts_keys_filter, firsts_keys_filter, keys_of_map hr]
  · rw [← ixOf_filter (Fs p) isRedK (k := .red r op) rfl, ← ixOf_filter (Fs q) isRedK (k := .red r op) rfl]
    exact ixOf_map _ _ hr _

/-- The prepared programs fit together. -/
theorem GOK.net (h : GOK N cf cs Ms dels B1s ms0 Fs) {S : Nat → List (CAct β × Nat)} (hS : ∀ p, SOK (cs p) (Ms p) (B1s p) (B2s p) (B3s p) (Fs p) (S p))
    {T : Nat → List (CBody β)} (hT : ∀ p, ∀ b ∈ T p, ∃ op, b = .other op ∧ op.key = none) (hTo : ∀ p, N ≤ p → T p = []) :
    NetOK N cf cs (fun p => numP ((firsts ((Fs 0).map FIt.key)).filterMap rk) (S p) (T p))
      (fun p => (cs p).inp1 (Ms p) (B1s p) (B2s p) (ms0 p) (Fs p)) ms0 := by
  generalize hL : (firsts ((Fs 0).map FIt.key)).filterMap rk = L
  have hmemS : ∀ p, ∀ x ∈ S p, x.1 ∈ (cs p).comb1 (B3s p) ((cs p).V3 (Ms p) (B1s p) (B2s p) (Fs p)) := by
    intro p x hx
    exact List.fst_mem_of_mem_zipIdx ((hS p).sort.1.subset hx)
  have hLp : ∀ p < N, (firsts ((Fs p).map FIt.key)).filterMap rk = L := by
    intro p hp
    rw [← hL]
    exact (h.reds' hp (by omega)).1
  have hredS : ∀ p, (S p).filterMap (fun x => redKey x.1.body) = (firsts ((Fs p).map FIt.key)).filterMap rk := fun p => (h.pok p).redKey_sorted (hS p).sort
  have hS0 : ∀ p, N ≤ p → S p = [] := by
    intro p hp
    have h1 := (hS p).sort.1
    rw [h.out p hp] at h1
    exact List.perm_nil.1 h1
  have hcoll : ∀ p, (numP L (S p) (T p)).filterMap (fun x => redKey x.2) = (firsts ((Fs p).map FIt.key)).filterMap rk := by
    intro p
    rw [numP_others _ (fun _ _ => rfl) L (S p) (hT p), List.filterMap_map]
    exact hredS p
  have hout : ∀ p k, ((cs p).runB ((cs p).inp1 (Ms p) (B1s p) (B2s p) (ms0 p) (Fs p)) (MSt.ofMem (ms0 p)) (numP L (S p) (T p))).out k =
      ((cs p).C3 (Ms p) (B1s p) (B2s p) (Fs p)).flatMap (fun x => x.2.2.outK (cs p).env k) := by
    intro p k
    rw [numP_run, others_out _ _ _ (hT p)]
    exact ((h.pok p).run5 (hS p).b2 (hS p).b3 (hS p).sort).2 k
  have hself : ∀ p, ∀ a ∈ (cs p).comb1 (B3s p) ((cs p).V3 (Ms p) (B1s p) (B2s p) (Fs p)), ∀ s d n,
      a.body ≠ .comm (.send p) s d n ∧ a.body ≠ .comm (.recv p) s d n := by
    intro p a ha s d n
    obtain ⟨h1, h2⟩ := h.self p (B2s p)
    unfold PCtx.sends at h1
    unfold PCtx.recvs at h2
    rw [(wsend_wcomm p _).1, List.map_eq_nil_iff] at h1
    rw [(wsend_wcomm p _).2, List.map_eq_nil_iff] at h2
    constructor
    · intro e
      have := (comb1_round ha e).1
      rw [kmsg_comb1, kmsg_V3, h1] at this
      cases this
    · intro e
      have := (comb1_round ha e).1
      rw [kmsg_comb1, kmsg_V3, h2] at this
      cases this
  refine { me := h.me, cfloc := h.cfloc, out := ?_, ok := ?_, nself := ?_, order := ?_, sizes := ?_, streams := ?_, colls := ?_, nodup := ?_, rnds := ?_, res := ?_ }
  · intro p hp
    show numP L (S p) (T p) = []
    rw [hS0 p hp, hTo p hp]
    rfl
  · intro p x hx
    rcases List.mem_append.1 hx with hx | hx
    · obtain ⟨y, hy, rfl⟩ := List.mem_map.1 hx
      exact (h.pok p).okB (hS p).b2 (h.root p) _ (hmemS p y hy)
    · obtain ⟨b, hb, rfl⟩ := List.mem_map.1 hx
      obtain ⟨op, rfl, hk⟩ := hT p b hb
      refine ⟨fun op' e => ?_, fun i o op s d n e => ?_, fun root op s d n e => ?_⟩
      · cases e; exact hk
      · cases e
      · cases e
  · intro p x hx a d n
    rcases List.mem_append.1 hx with hx | hx
    · obtain ⟨y, hy, rfl⟩ := List.mem_map.1 hx
      exact hself p _ (hmemS p y hy) a d n
    · obtain ⟨b, hb, rfl⟩ := List.mem_map.1 hx
      obtain ⟨op, rfl, hk⟩ := hT p b hb
      exact ⟨fun e => (by cases e), fun e => (by cases e)⟩
  · intro p
    show (numP L (S p) (T p)).Pairwise _
    unfold numP
    rw [List.pairwise_append]
    refine ⟨?_, ?_, ?_⟩
    · by_cases hp : p < N
      · have hs := (hS p).sort
        rw [h.me p] at hs
        refine order_sorted hs L ?_ ((hredS p).trans (hLp p hp)) (fun a ha k s d n e => (comb1_round ha e).2) ?_ (hself p)
        · rw [← hLp p hp]
          exact rk_nodup (Fs p)
        · intro a ha k hk
          obtain ⟨_, s, d, n, e⟩ := kind_red hk
          exact ((h.pok p).comb1_red ha e).1
      · rw [hS0 p (by omega)]
        exact List.Pairwise.nil
    · apply List.pairwise_of_forall_mem_list
      intro a ha b hb ka kb hka
      obtain ⟨x, hx, rfl⟩ := List.mem_map.1 ha
      obtain ⟨op, rfl, hk⟩ := hT p x hx
      cases hka
    · intro a ha b hb ka kb hka hkb
      obtain ⟨x, hx, rfl⟩ := List.mem_map.1 hb
      obtain ⟨op, rfl, hk⟩ := hT p x hx
      cases hkb
  · intro p q hpq
    rw [sizes_numP (cs p) L (S p) (hT p) _ rfl, sizes_numP (cs q) L (S q) (hT q) _ rfl, (h.same p q).1]
    congr 1
    refine kmsg_eq (hS p).sort (hS q).sort ?_
    rw [kmsg_V3, kmsg_V3]
    have := congrArg (List.map (fun v : Nat × Nat × List β => (v.1, v.2.1))) (h.msgs (B2s := B2s) p q hpq)
    unfold PCtx.sends PCtx.recvs at this
    rw [(wsend_wcomm _ _).1, (wsend_wcomm _ _).2, List.map_map, List.map_map] at this
    exact this
  · intro p q hpq i v hv
    rw [hout, (sends_flat (cs p) q _).1] at hv
    apply strm_some
    rw [(sends_flat (cs q) p _).2]
    have := h.msgs (B2s := B2s) p q hpq
    unfold PCtx.sends PCtx.recvs at this
    rw [← this]
    exact hv
  · intro p hp q hq
    rw [hcoll p, hcoll q, hLp p hp, hLp q hq]
  · intro p
    rw [hcoll p]
    exact rk_nodup (Fs p)
  · intro p q x hx y hy k hkx hky
    have key : ∀ p, ∀ x ∈ numP L (S p) (T p), redKey x.2 = some k → x.1 = 1 + L.idxOf k := by
      intro p x hx hk
      rcases List.mem_append.1 hx with hx | hx
      · obtain ⟨y, hy, rfl⟩ := List.mem_map.1 hx
        exact grnd_red hk
      · obtain ⟨b, hb, rfl⟩ := List.mem_map.1 hx
        obtain ⟨op, rfl, _⟩ := hT p b hb
        cases hk
    rw [key p x hx hkx, key q y hy hky]
  · intro p x hx root op a d n e hroot
    rcases List.mem_append.1 hx with hx | hx
    swap
    · obtain ⟨b, hb, rfl⟩ := List.mem_map.1 hx
      obtain ⟨op, rfl, _⟩ := hT p b hb
      cases e
    obtain ⟨y, hy, rfl⟩ := List.mem_map.1 hx
    obtain ⟨_, hn, hk⟩ := (h.pok p).comb1_red (hmemS p y hy) e
    obtain ⟨f, hf, ef⟩ := key_inj hk
    have hdat := h.cdat p f hf root op ef hroot
    rw [ef] at hdat
    have hisOut : (cs p).env.isOut (.red root op) = true := by
      simp only [CEnv.isOut, PCtx.env, Bool.or_eq_true, beq_iff_eq, h.me p]
      exact hroot
    have e1 : ∀ q, ((cs q).C3 (Ms q) (B1s q) (B2s q) (Fs q)).flatMap (fun x => x.2.2.outK (cs q).env (.red root op)) =
        (ixOf (Fs q) (.red root op)).flatMap ((Ms q).elem q) := by
      intro q
      rw [(comm_flat _ _ _).1, (h.pok q).red_C3]
      have : (cs q).env.isIn (.red root op) = true := rfl
      rw [if_pos this]
      by_cases c1 : CKey.red root op ∈ (Fs q).map FIt.key
      · rw [if_pos c1]
        simp [PCtx.payK, h.me q, (h.pok q).ix]
      · rw [if_neg c1]
        have : ixOf (Fs q) (.red root op) = [] := by
          by_contra hne
          exact c1 (mem_firsts.1 ((ixOf_nil (h.pok q).pos _).2 hne))
        rw [this]
        rfl
    have e2 : ((cs p).C3 (Ms p) (B1s p) (B2s p) (Fs p)).flatMap (fun x => x.2.2.innK (cs p).env (.red root op)) = (Ms p).dat (.red root op) := by
      rw [(comm_flat _ _ _).2, (h.pok p).red_C3, if_pos hisOut, if_pos hk]
      simp [PCtx.datK]
    have e3 : ((Ms p).dat (.red root op)).length = n * (cs p).es := by
      have h1 := (h.pok p).datK (.red root op)
      have h2 : (cs p).datK (Ms p) (.red root op) = (Ms p).dat (.red root op) := rfl
      rw [← h2, h1, hn, (h.pok p).ix]
      apply flatMap_length_const
      intro i hi
      unfold ixOf at hi
      obtain ⟨g, hg, hi⟩ := List.mem_flatMap.1 hi
      obtain ⟨hg1, hg2⟩ := List.mem_filter.1 hg
      rw [decide_eq_true_eq] at hg2
      have := (h.pok p).delLen hg1 (by rw [hg2]; exact hisOut) i hi
      rwa [hg2] at this
    have e4 : (fun q => ((cs q).runB ((cs q).inp1 (Ms q) (B1s q) (B2s q) (ms0 q) (Fs q)) (MSt.ofMem (ms0 q)) (numP L (S q) (T q))).out (.red root op)) =
        fun q => (ixOf (Fs q) (.red root op)).flatMap ((Ms q).elem q) := by
      funext q
      rw [hout, e1]
    simp only [e4]
    rw [← hdat]
    apply stream_eq e3
    intro i v hv
    apply strm_some
    rw [e2]
    exact hv

end Laik.Mp
