import Verif.Model.MpiProcess
/-!
# Messages of all processes after preparation

Both partners have the same messages in each round, and all processes have the
same collectives.
-/

namespace Laik.Mp

variable {β ι : Type}

/-- Messages to `q` made from the communication with key `k` for indexes `I`:
round, number of elements, contents. -/
def PCtx.sK (c : PCtx β) (M : MData β ι) (q : Nat) (k : CKey) (I : List ι) : List (Nat × Nat × List β) :=
  match k with
  | .send t => if t = q then [(13, I.length, I.flatMap (M.elem c.me))] else []
  | .gred i o _ =>
    (if g0 (transGroup c.n c.gs i) (transGroup c.n c.gs o) c.me q then [(12, I.length, I.flatMap (M.elem c.me))] else []) ++
    (if g2 (transGroup c.n c.gs i) (transGroup c.n c.gs o) c.me q then
      [(14, I.length, I.flatMap (c.gval M (transGroup c.n c.gs i) (transGroup c.n c.gs o)))] else [])
  | _ => []

/-- Messages from `q`. -/
def PCtx.rK (c : PCtx β) (M : MData β ι) (q : Nat) (k : CKey) (I : List ι) : List (Nat × Nat × List β) :=
  match k with
  | .recv t => if t = q then [(13, I.length, M.dat k)] else []
  | .gred i o _ =>
    (if g0 (transGroup c.n c.gs i) (transGroup c.n c.gs o) q c.me then [(12, I.length, I.flatMap (M.elem q))] else []) ++
    (if g2 (transGroup c.n c.gs i) (transGroup c.n c.gs o) q c.me then
      [(14, I.length, I.flatMap (c.gval M (transGroup c.n c.gs i) (transGroup c.n c.gs o)))] else [])
  | _ => []

theorem wM_msgs (c : PCtx β) (M : MData β ι) (B q : Nat) (a : CM) (hg : ∀ g, (transGroup c.n c.gs g).Nodup)
    (ho : ∀ i o op, a.key = .gred i o op → use3 (transGroup c.n c.gs i) = true → transGroup c.n c.gs o ≠ []) (hc : a.cnt = (M.ix a.key).length) :
    (c.wM M 4 B a).filterMap (wsend q) = c.sK M q a.key (M.ix a.key) ∧ (c.wM M 4 B a).filterMap (wrecv q) = c.rK M q a.key (M.ix a.key) := by
  cases hk : a.key with
  | send t =>
    rw [wM_notGred c M 4 B (by rw [hk]; rfl)]
    constructor
    · simp only [List.filterMap_cons, List.filterMap_nil, wsend, CM.body, hk, PCtx.sK]
      by_cases e : t = q
      · simp only [e, if_true, hc, hk, PCtx.payK]
      · simp only [e, if_false]
    · simp only [List.filterMap_cons, List.filterMap_nil, wrecv, CM.body, hk, PCtx.rK]
  | recv t =>
    rw [wM_notGred c M 4 B (by rw [hk]; rfl)]
    constructor
    · simp only [List.filterMap_cons, List.filterMap_nil, wsend, CM.body, hk, PCtx.sK]
    · simp only [List.filterMap_cons, List.filterMap_nil, wrecv, CM.body, hk, PCtx.rK]
      by_cases e : t = q
      · simp only [e, if_true, hc, hk, PCtx.datK]
      · simp only [e, if_false]
  | red r op =>
    rw [wM_notGred c M 4 B (by rw [hk]; rfl)]
    constructor
    · simp only [List.filterMap_cons, List.filterMap_nil, wsend, CM.body, hk, PCtx.sK]
    · simp only [List.filterMap_cons, List.filterMap_nil, wrecv, CM.body, hk, PCtx.rK]
  | gred i o op =>
    rw [wM_gred c M 4 B hk]
    obtain ⟨h1, h2⟩ := wG_msgs c B 4 a.src a.dst a.cnt (transGroup c.n c.gs i) (transGroup c.n c.gs o) (fun q => (M.ix a.key).flatMap (M.elem q))
      (c.datK M a.key) q (hg i) (hg o) (ho i o op hk)
    rw [h1, h2, hc, hk]
    exact ⟨rfl, rfl⟩

theorem wMs_msgs (c : PCtx β) (M : MData β ι) (q : Nat) (l : List CM) (hg : ∀ g, (transGroup c.n c.gs g).Nodup)
    (ho : ∀ a ∈ l, ∀ i o op, a.key = .gred i o op → use3 (transGroup c.n c.gs i) = true → transGroup c.n c.gs o ≠ []) (hc : ∀ a ∈ l, a.cnt = (M.ix a.key).length) : ∀ B,
    ((c.wMs M 4 B l).map (·.2)).filterMap (wsend q) = (l.map CM.key).flatMap (fun k => c.sK M q k (M.ix k)) ∧
    ((c.wMs M 4 B l).map (·.2)).filterMap (wrecv q) = (l.map CM.key).flatMap (fun k => c.rK M q k (M.ix k)) := by
  induction l with
  | nil => intro B; exact ⟨rfl, rfl⟩
  | cons a l ih =>
    intro B
    obtain ⟨i1, i2⟩ := ih (fun b hb => ho b (List.mem_cons_of_mem _ hb)) (fun b hb => hc b (List.mem_cons_of_mem _ hb)) (B + c.gsize a)
    obtain ⟨w1, w2⟩ := wM_msgs c M B q a hg (ho a List.mem_cons_self) (hc a List.mem_cons_self)
    have e : ((c.wM M 4 B a).map (fun x => (a.key, x))).map (·.2) = c.wM M 4 B a := by
      rw [List.map_map]
      exact List.map_id _
    rw [PCtx.wMs, List.map_append, List.filterMap_append, List.filterMap_append, i1, i2, e, w1, w2, List.map_cons, List.flatMap_cons, List.flatMap_cons]
    exact ⟨rfl, rfl⟩

theorem filterMap_round {f : Nat × WIt β → Option (Nat × Nat × List β)} (hf : ∀ y v, f y = some v → v.1 = y.1) (r : Nat) (L : List (Nat × WIt β)) :
    (L.filter (fun y => y.1 = r)).filterMap f = (L.filterMap f).filter (fun y => y.1 = r) := by
  induction L with
  | nil => rfl
  | cons y L ih =>
    cases e : f y with
    | none =>
      rw [List.filterMap_cons_none e]
      by_cases c : y.1 = r
      · rw [List.filter_cons_of_pos (by simpa using c), List.filterMap_cons_none e, ih]
      · rw [List.filter_cons_of_neg (by simpa using c), ih]
    | some v =>
      have := hf y v e
      rw [List.filterMap_cons_some e]
      by_cases c : y.1 = r
      · rw [List.filter_cons_of_pos (by simpa using c), List.filterMap_cons_some e, List.filter_cons_of_pos (by simpa [this] using c), ih]
      · rw [List.filter_cons_of_neg (by simpa using c), List.filter_cons_of_neg (by simpa [this] using c), ih]

theorem wsend_round (q : Nat) (y : Nat × WIt β) (v : Nat × Nat × List β) (h : wsend q y = some v) : v.1 = y.1 := by
  unfold wsend at h
  split at h
  · split at h
    · cases h; rfl
    · cases h
  · cases h

theorem wrecv_round (q : Nat) (y : Nat × WIt β) (v : Nat × Nat × List β) (h : wrecv q y = some v) : v.1 = y.1 := by
  unfold wrecv at h
  split at h
  · split at h
    · cases h; rfl
    · cases h
  · cases h

theorem blocks3_msgs {f : Nat × WIt β → Option (Nat × Nat × List β)} (hf : ∀ y v, f y = some v → v.1 = y.1) (L : List (CKey × Nat × WIt β)) :
    ((blocks3 4 L).map (·.2)).filterMap f = [12, 13, 14].flatMap (fun r => ((L.map (·.2)).filterMap f).filter (fun y => y.1 = r)) := by
  unfold blocks3
  rw [List.map_flatMap, List.filterMap_flatMap]
  apply List.flatMap_congr
  intro r _
  rw [← filterMap_round hf, List.filter_map]
  rfl

/-- Messages sent to `q` by the communication in order. -/
def PCtx.sends (c : PCtx β) (M : MData β ι) (B1 B2 : Nat) (F : List (FIt ι)) (q : Nat) : List (Nat × Nat × List β) :=
  ((c.C3 M B1 B2 F).map (·.2)).filterMap (wsend q)

def PCtx.recvs (c : PCtx β) (M : MData β ι) (B1 B2 : Nat) (F : List (FIt ι)) (q : Nat) : List (Nat × Nat × List β) :=
  ((c.C3 M B1 B2 F).map (·.2)).filterMap (wrecv q)

variable {c : PCtx β} {M : MData β ι} {del : CKey → ι → List β} {B1 B2 B3 : Nat} {m0 : Nat → β} {F : List (FIt ι)}

theorem POK.msgs (h : POK c M del B1 m0 F) (hg : ∀ g, (transGroup c.n c.gs g).Nodup) (B2 q : Nat) :
    c.sends M B1 B2 F q = [12, 13, 14].flatMap (fun r => ((firsts (F.map FIt.key)).flatMap (fun k => c.sK M q k (ixOf F k))).filter (fun y => y.1 = r)) ∧
    c.recvs M B1 B2 F q = [12, 13, 14].flatMap (fun r => ((firsts (F.map FIt.key)).flatMap (fun k => c.rK M q k (ixOf F k))).filter (fun y => y.1 = r)) := by
  have ho : ∀ a ∈ c.Ms B1 F, ∀ i o op, a.key = .gred i o op → use3 (transGroup c.n c.gs i) = true → transGroup c.n c.gs o ≠ [] := by
    intro a ha i o op hk
    obtain ⟨f, hf, e⟩ := key_inj (Ms_cnt c B1 F a ha).2
    exact h.outs f hf i o op (e.trans hk)
  have hc : ∀ a ∈ c.Ms B1 F, a.cnt = (M.ix a.key).length := fun a ha => by rw [h.ix]; exact (Ms_cnt c B1 F a ha).1
  obtain ⟨w1, w2⟩ := wMs_msgs c M q (c.Ms B1 F) hg ho hc B2
  rw [Ms_keys'] at w1 w2
  have hix : M.ix = ixOf F := funext h.ix
  rw [hix] at w1 w2
  unfold PCtx.sends PCtx.recvs PCtx.C3
  rw [blocks3_msgs (wsend_round q), blocks3_msgs (wrecv_round q), w1, w2]
  exact ⟨rfl, rfl⟩

theorem sends_flat (c : PCtx β) (q : Nat) (L : List (CKey × Nat × WIt β)) :
    L.flatMap (fun x => x.2.2.outK c.env (.send q)) = ((L.map (·.2)).filterMap (wsend q)).flatMap (·.2.2) ∧
    L.flatMap (fun x => x.2.2.innK c.env (.recv q)) = ((L.map (·.2)).filterMap (wrecv q)).flatMap (·.2.2) := by
  induction L with
  | nil => exact ⟨rfl, rfl⟩
  | cons y L ih =>
    obtain ⟨i1, i2⟩ := ih
    rw [List.flatMap_cons, List.flatMap_cons, i1, i2, List.map_cons]
    constructor
    · cases hb : y.2.2.body with
      | other op => rw [List.filterMap_cons_none (by simp [wsend, hb])]; simp [WIt.outK, hb]
      | comm k s d n =>
        by_cases c1 : k = .send q
        · subst c1
          rw [List.filterMap_cons_some (b := (y.2.1, n, y.2.2.out)) (by simp [wsend, hb]), List.flatMap_cons]
          simp [WIt.outK, hb, CEnv.isIn]
        · rw [List.filterMap_cons_none]
          · simp [WIt.outK, hb, c1]
          · unfold wsend
            rw [hb]
            cases k with
            | send t => simp only; rw [if_neg]; rintro rfl; exact c1 rfl
            | recv => rfl
            | gred => rfl
            | red => rfl
    · cases hb : y.2.2.body with
      | other op => rw [List.filterMap_cons_none (by simp [wrecv, hb])]; simp [WIt.innK, hb]
      | comm k s d n =>
        by_cases c1 : k = .recv q
        · subst c1
          rw [List.filterMap_cons_some (b := (y.2.1, n, y.2.2.inn)) (by simp [wrecv, hb]), List.flatMap_cons]
          simp [WIt.innK, hb, CEnv.isOut]
        · rw [List.filterMap_cons_none]
          · simp [WIt.innK, hb, c1]
          · unfold wrecv
            rw [hb]
            cases k with
            | recv t => simp only; rw [if_neg]; rintro rfl; exact c1 rfl
            | send => rfl
            | gred => rfl
            | red => rfl

theorem firsts_nodup {κ : Type} [DecidableEq κ] (l : List κ) : (firsts l).Nodup := firstsGo_nodup l []

theorem headD_mem {l : List Nat} (h : l ≠ []) : l.headD 0 ∈ l := by
  cases l with
  | nil => exact absurd rfl h
  | cons a l => exact List.mem_cons_self

theorem g0_mem {ins outs : List Nat} {p q : Nat} (ho : use3 ins = true → outs ≠ []) (h : g0 ins outs p q) : p ∈ ins ∧ q ∈ outs := by
  obtain ⟨h1, _, h2⟩ := h
  split at h2
  · rename_i hu
    exact ⟨h1, h2 ▸ headD_mem (ho hu)⟩
  · exact ⟨h1, h2⟩

theorem g2_mem {ins outs : List Nat} {p q : Nat} (ho : use3 ins = true → outs ≠ []) (h : g2 ins outs p q) : p ∈ outs ∧ q ∈ outs :=
  ⟨h.2.1 ▸ headD_mem (ho h.1), h.2.2.1⟩

/-! ### All processes -/

/-- Process `q` takes part in the reduction. -/
def inv (n : Nat) (gs : List (List Nat)) (q : Nat) (k : CKey) : Bool :=
  match k with
  | .gred i o _ => decide (q ∈ transGroup n gs i ∨ q ∈ transGroup n gs o)
  | _ => false

/-- Processes of a group reduction; groups are numbered differently on each process. -/
def PCtx.grp (c : PCtx β) (k : CKey) : List Nat × List Nat × Nat :=
  match k with
  | .gred i o op => (transGroup c.n c.gs i, transGroup c.n c.gs o, op)
  | _ => ([], [], 0)

def isRedK (k : CKey) : Bool :=
  match k with
  | .red _ _ => true
  | _ => false

/-- Values and operations which are the same on all processes, and matching actions. -/
structure GOK (N : Nat) (cf : Nat → (Nat → List β) → Nat → List β) (cs : Nat → PCtx β) (Ms : Nat → MData β ι) (dels : Nat → CKey → ι → List β)
    (B1 : Nat → Nat) (m0 : Nat → Nat → β) (Fs : Nat → List (FIt ι)) : Prop where
  me : ∀ p, (cs p).me = p
  same : ∀ p q, (cs p).es = (cs q).es ∧ (cs p).red = (cs q).red ∧ (cs p).neutral = (cs q).neutral
  elem : ∀ p q, (Ms p).elem = (Ms q).elem
  groups : ∀ p g, (transGroup (cs p).n (cs p).gs g).Nodup
  pok : ∀ p, POK (cs p) (Ms p) (dels p) (B1 p) (m0 p) (Fs p)
  out : ∀ p, N ≤ p → Fs p = []
  nself : ∀ p, ∀ f ∈ Fs p, f.key ≠ .send p ∧ f.key ≠ .recv p
  root : ∀ p, ∀ f ∈ Fs p, ∀ r op, f.key = .red r op → -1 ≤ r
  sr : ∀ p q, p ≠ q → ixOf (Fs p) (.send q) = ixOf (Fs q) (.recv p)
  dat : ∀ p q, (Ms q).dat (.recv p) = (ixOf (Fs q) (.recv p)).flatMap ((Ms q).elem p)
  inj : ∀ p, ∀ f ∈ Fs p, ∀ g ∈ Fs p, notGred f.key = false → notGred g.key = false → (cs p).grp f.key = (cs p).grp g.key → f.key = g.key
  greds : ∀ p q, p ≠ q → ((Fs p).filter (fun f => inv (cs p).n (cs p).gs q f.key)).map (fun f => ((cs p).grp f.key, f.idx)) =
    ((Fs q).filter (fun f => inv (cs q).n (cs q).gs p f.key)).map (fun f => ((cs q).grp f.key, f.idx))
  reds : ∀ p < N, ∀ q < N, ((Fs p).filter (fun f => isRedK f.key)).map (fun f => (f.key, f.idx)) =
    ((Fs q).filter (fun f => isRedK f.key)).map (fun f => (f.key, f.idx))
  cfloc : ∀ k w w' p, (∀ q < N, w q = w' q) → cf k w p = cf k w' p
  cdat : ∀ p, ∀ f ∈ Fs p, ∀ r op, f.key = .red r op → r = p ∨ r = -1 →
    (Ms p).dat f.key = cf (collNo r op) (fun q => (ixOf (Fs q) f.key).flatMap ((Ms q).elem q)) p

theorem ixOf_filter (F : List (FIt ι)) (P : CKey → Bool) {k : CKey} (hk : P k = true) : ixOf (F.filter (fun f => P f.key)) k = ixOf F k := by
  unfold ixOf
  rw [List.filter_filter]
  congr 1
  apply List.filter_congr
  intro f _
  by_cases c : f.key = k
  · simp [c, hk]
  · simp [c]

theorem ixOf_map (F G : List (FIt ι)) (h : F.map (fun f => (f.key, f.idx)) = G.map (fun f => (f.key, f.idx))) (k : CKey) : ixOf F k = ixOf G k := by
  induction F generalizing G with
  | nil => cases G with
    | nil => rfl
    | cons => cases h
  | cons f F ih =>
    cases G with
    | nil => cases h
    | cons g G =>
      simp only [List.map_cons, List.cons.injEq, Prod.mk.injEq] at h
      rw [ixOf_cons, ixOf_cons, ih G h.2, h.1.1, h.1.2]

theorem firsts_keys_filter (F : List (FIt ι)) (P : CKey → Bool) : (firsts (F.map FIt.key)).filter P = firsts ((F.filter (fun f => P f.key)).map FIt.key) := by
  rw [firsts_filter, List.filter_map]
  rfl

theorem keys_of_map {F G : List (FIt ι)} (h : F.map (fun f => (f.key, f.idx)) = G.map (fun f => (f.key, f.idx))) : F.map FIt.key = G.map FIt.key := by
  have := congrArg (List.map Prod.fst) h
  rw [List.map_map, List.map_map] at this
  exact this

/-- Results for the keys chosen, by the name `g` of keys. -/
theorem pick_names {α R : Type} [DecidableEq R] {F : List (FIt ι)} (P : CKey → Bool) (g : CKey → R)
    (hg : ∀ a ∈ F, ∀ b ∈ F, P a.key = true → P b.key = true → g a.key = g b.key → a.key = b.key)
    (s : CKey → List ι → List α) (t : R → List ι → List α) (hs : ∀ k ∈ F.map FIt.key, ∀ I, P k = false → s k I = [])
    (hst : ∀ k ∈ F.map FIt.key, P k = true → ∀ I, s k I = t (g k) I) (A : List (R × List ι))
    (hA : (F.filter (fun f => P f.key)).map (fun f => (g f.key, f.idx)) = A) :
    (firsts (F.map FIt.key)).flatMap (fun k => s k (ixOf F k)) =
      (firsts (A.map (·.1))).flatMap (fun r => t r ((A.filter (fun x => x.1 = r)).flatMap (·.2))) := by
  have key : ∀ (l : List CKey) (R : CKey → Bool) (u : CKey → List α), (∀ k ∈ l, R k = false → u k = []) → l.flatMap u = (l.filter R).flatMap u := by
    intro l R u hu
    induction l with
    | nil => rfl
    | cons k l ih =>
      have ih := ih (fun k hk => hu k (List.mem_cons_of_mem _ hk))
      cases e : R k with
      | true => rw [List.filter_cons_of_pos e, List.flatMap_cons, List.flatMap_cons, ih]
      | false => rw [List.filter_cons_of_neg (by simp [e]), List.flatMap_cons, hu k List.mem_cons_self e, List.nil_append, ih]
  rw [key _ P _ (fun k hm hk => hs k (mem_firsts.1 hm) _ hk), firsts_keys_filter]
  have e1 : A.map (·.1) = ((F.filter (fun f => P f.key)).map FIt.key).map g := by
    rw [← hA, List.map_map, List.map_map]
    rfl
  rw [e1, firsts_map g, List.flatMap_map]
  · apply List.flatMap_congr
    intro k hk
    obtain ⟨f, hf, rfl⟩ := List.mem_map.1 (mem_firsts.1 hk)
    obtain ⟨hf1, hf2⟩ := List.mem_filter.1 hf
    rw [hst _ (List.mem_map_of_mem hf1) hf2]
    congr 1
    rw [← ixOf_filter F P hf2, ← hA, List.filter_map, List.flatMap_map]
    unfold ixOf
    congr 1
    apply List.filter_congr
    intro a ha
    obtain ⟨ha1, ha2⟩ := List.mem_filter.1 ha
    simp only [Function.comp, decide_eq_decide]
    exact ⟨fun e => by rw [e], fun e => hg a ha1 f hf1 ha2 hf2 e⟩
  · intro x hx y hy e
    obtain ⟨a, ha, rfl⟩ := List.mem_map.1 hx
    obtain ⟨b, hb, rfl⟩ := List.mem_map.1 hy
    obtain ⟨ha1, ha2⟩ := List.mem_filter.1 ha
    obtain ⟨hb1, hb2⟩ := List.mem_filter.1 hb
    exact hg a ha1 b hb1 ha2 hb2 e

theorem ixOf_nil {F : List (FIt ι)} (hpos : ∀ f ∈ F, f.idx ≠ []) (k : CKey) : k ∈ firsts (F.map FIt.key) ↔ ixOf F k ≠ [] := by
  rw [mem_firsts]
  constructor
  · intro h
    obtain ⟨f, hf, rfl⟩ := List.mem_map.1 h
    intro e
    unfold ixOf at e
    rw [List.flatMap_eq_nil_iff] at e
    exact hpos f hf (e f (List.mem_filter.2 ⟨hf, by simp⟩))
  · intro h
    by_contra hn
    apply h
    unfold ixOf
    rw [List.flatMap_eq_nil_iff]
    intro f hf
    obtain ⟨h1, h2⟩ := List.mem_filter.1 hf
    rw [decide_eq_true_eq] at h2
    exact absurd (h2 ▸ List.mem_map_of_mem h1) hn

theorem flat_one {α κ : Type} [DecidableEq κ] {l : List κ} (hn : l.Nodup) (g : κ → List α) (k : κ) (hg : ∀ a, a ≠ k → g a = []) :
    l.flatMap g = if k ∈ l then g k else [] := by
  induction l with
  | nil => rfl
  | cons b l ih =>
    rw [List.nodup_cons] at hn
    rw [List.flatMap_cons, ih hn.2]
    by_cases c : b = k
    · subst c
      rw [if_neg hn.1, if_pos List.mem_cons_self, List.append_nil]
    · rw [hg b c, List.nil_append]
      congr 1
      rw [eq_iff_iff, List.mem_cons]
      exact ⟨Or.inr, fun h => h.resolve_left (fun e => c e.symm)⟩

variable {N : Nat} {cf : Nat → (Nat → List β) → Nat → List β} {cs : Nat → PCtx β} {Ms : Nat → MData β ι} {dels : Nat → CKey → ι → List β}
  {B1s B2s B3s : Nat → Nat} {ms0 : Nat → Nat → β} {Fs : Nat → List (FIt ι)}

theorem flat_filter {α κ : Type} (P : α → Bool) (l : List κ) (g : κ → List α) : (l.flatMap g).filter P = l.flatMap (fun k => (g k).filter P) :=
  List.filter_flatMap ..

/-- Both partners have the same messages. -/
theorem GOK.msgs (h : GOK N cf cs Ms dels B1s ms0 Fs) (p q : Nat) (hpq : p ≠ q) :
    (cs p).sends (Ms p) (B1s p) (B2s p) (Fs p) q = (cs q).recvs (Ms q) (B1s q) (B2s q) (Fs q) p := by
  rw [((h.pok p).msgs (h.groups p) (B2s p) q).1, ((h.pok q).msgs (h.groups q) (B2s q) p).2]
  apply List.flatMap_congr
  intro r hr
  rw [flat_filter, flat_filter]
  obtain ⟨e3, e4, e5⟩ := h.same p q
  have ee := h.elem p q
  by_cases hr13 : r = 13
  · subst hr13
    have hs : ∀ k, ((cs p).sK (Ms p) q k (ixOf (Fs p) k)).filter (fun y => decide (y.1 = 13)) =
        if k = .send q then [(13, (ixOf (Fs p) k).length, (ixOf (Fs p) k).flatMap ((Ms p).elem p))] else [] := by
      intro k
      cases k with
      | send t =>
        unfold PCtx.sK
        by_cases c : t = q
        · subst c; simp [h.me]
        · simp [c]
      | recv t => simp [PCtx.sK]
      | red r op => simp [PCtx.sK]
      | gred i o op =>
        simp only [PCtx.sK, List.filter_append]
        rw [if_neg (c := CKey.gred i o op = .send q) (by intro e; cases e)]
        split <;> split <;> simp
    have ht : ∀ k, ((cs q).rK (Ms q) p k (ixOf (Fs q) k)).filter (fun y => decide (y.1 = 13)) =
        if k = .recv p then [(13, (ixOf (Fs q) k).length, (Ms q).dat k)] else [] := by
      intro k
      cases k with
      | recv t =>
        unfold PCtx.rK
        by_cases c : t = p
        · subst c; simp
        · simp [c]
      | send t => simp [PCtx.rK]
      | red r op => simp [PCtx.rK]
      | gred i o op =>
        simp only [PCtx.rK, List.filter_append]
        rw [if_neg (c := CKey.gred i o op = .recv p) (by intro e; cases e)]
        split <;> split <;> simp
    simp only [hs, ht]
    rw [flat_one (firsts_nodup _) _ (CKey.send q) (fun a ha => if_neg ha), flat_one (firsts_nodup _) _ (CKey.recv p) (fun a ha => if_neg ha)]
    rw [if_pos rfl, if_pos rfl, h.dat p q, ← h.sr p q hpq, ← ee]
    have h1 : (CKey.send q ∈ firsts ((Fs p).map FIt.key)) ↔ (CKey.recv p ∈ firsts ((Fs q).map FIt.key)) := by
      rw [ixOf_nil (h.pok p).pos, ixOf_nil (h.pok q).pos, h.sr p q hpq]
    by_cases c : CKey.send q ∈ firsts ((Fs p).map FIt.key)
    · have c' := h1.1 c
      rw [if_pos c, if_pos c']
    · have c' := fun hh => c (h1.2 hh)
      rw [if_neg c, if_neg c']
  · have hinv : ∀ p q, ∀ a ∈ Fs p, ∀ b ∈ Fs p, inv (cs p).n (cs p).gs q a.key = true → inv (cs p).n (cs p).gs q b.key = true →
        (cs p).grp a.key = (cs p).grp b.key → a.key = b.key := by
      intro p q a ha b hb h1 h2
      apply h.inj p a ha b hb
      · cases hk : a.key with
        | gred => rfl
        | send => rw [hk] at h1; cases h1
        | recv => rw [hk] at h1; cases h1
        | red => rw [hk] at h1; cases h1
      · cases hk : b.key with
        | gred => rfl
        | send => rw [hk] at h2; cases h2
        | recv => rw [hk] at h2; cases h2
        | red => rw [hk] at h2; cases h2
    let t : List Nat × List Nat × Nat → List ι → List (Nat × Nat × List β) := fun R I =>
      ((if g0 R.1 R.2.1 p q then [(12, I.length, I.flatMap ((Ms p).elem p))] else []) ++
        (if g2 R.1 R.2.1 p q then [(14, I.length, I.flatMap (fun i => gredVal (cs p).red (cs p).neutral (R.2.1.headD 0) R.1 (fun q => (Ms p).elem q i)))] else [])).filter
        (fun y => decide (y.1 = r))
    rw [pick_names (inv (cs p).n (cs p).gs q) (cs p).grp (hinv p q)
      (fun k I => ((cs p).sK (Ms p) q k I).filter (fun y => decide (y.1 = r))) t ?_ ?_ _ (h.greds p q hpq),
      pick_names (inv (cs q).n (cs q).gs p) (cs q).grp (hinv q p)
      (fun k I => ((cs q).rK (Ms q) p k I).filter (fun y => decide (y.1 = r))) t ?_ ?_ _ rfl]
    · intro k hm I hk
      cases k with
      | recv t =>
        simp only [PCtx.rK]
        split
        · rw [List.filter_cons_of_neg (by simpa using fun e => hr13 e.symm)]; rfl
        · rfl
      | send t => rfl
      | red r op => rfl
      | gred i o op =>
        obtain ⟨f, hf, e⟩ := key_inj hm
        have ho := (h.pok q).outs f hf i o op e
        simp only [inv, decide_eq_false_iff_not, not_or] at hk
        simp only [PCtx.rK]
        rw [if_neg (fun hh => hk.1 (g0_mem ho hh).1), if_neg (fun hh => hk.2 (g2_mem ho hh).1)]
        rfl
    · intro k hm hP I
      cases k with
      | send t => cases hP
      | recv t => cases hP
      | red r op => cases hP
      | gred i o op =>
        simp only [PCtx.rK, t, PCtx.grp, h.me q, ee]
        by_cases c : g2 (transGroup (cs q).n (cs q).gs i) (transGroup (cs q).n (cs q).gs o) p q
        · have hu := c.1
          rw [if_pos c, if_pos c]
          have : (cs q).gval (Ms q) (transGroup (cs q).n (cs q).gs i) (transGroup (cs q).n (cs q).gs o) =
              fun i' => gredVal (cs p).red (cs p).neutral ((transGroup (cs q).n (cs q).gs o).headD 0) (transGroup (cs q).n (cs q).gs i) (fun q' => (Ms q).elem q' i') := by
            unfold PCtx.gval calcBy
            rw [e4, e5, if_pos hu]
          rw [this]
        · rw [if_neg c, if_neg c]
    · intro k hm I hk
      cases k with
      | send t =>
        simp only [PCtx.sK]
        split
        · rw [List.filter_cons_of_neg (by simpa using fun e => hr13 e.symm)]; rfl
        · rfl
      | recv t => rfl
      | red r op => rfl
      | gred i o op =>
        obtain ⟨f, hf, e⟩ := key_inj hm
        have ho := (h.pok p).outs f hf i o op e
        simp only [inv, decide_eq_false_iff_not, not_or] at hk
        simp only [PCtx.sK]
        rw [if_neg (fun hh => hk.2 (g0_mem ho hh).2), if_neg (fun hh => hk.2 (g2_mem ho hh).2)]
        rfl
    · intro k hm hP I
      cases k with
      | send t => cases hP
      | recv t => cases hP
      | red r op => cases hP
      | gred i o op =>
        simp only [PCtx.sK, t, PCtx.grp, h.me p]
        by_cases c : g2 (transGroup (cs p).n (cs p).gs i) (transGroup (cs p).n (cs p).gs o) p q
        · have hu := c.1
          rw [if_pos c, if_pos c]
          have : (cs p).gval (Ms p) (transGroup (cs p).n (cs p).gs i) (transGroup (cs p).n (cs p).gs o) =
              fun i' => gredVal (cs p).red (cs p).neutral ((transGroup (cs p).n (cs p).gs o).headD 0) (transGroup (cs p).n (cs p).gs i) (fun q' => (Ms p).elem q' i') := by
            unfold PCtx.gval calcBy
            rw [if_pos hu]
          rw [this]
        · rw [if_neg c, if_neg c]

end Laik.Mp
