import Verif.Model.MpiMatch
import Verif.Model.MpiNet
import Verif.Props.ActionSort
/-!
# The prepared programs of all processes fit together
-/

namespace Laik.Mp

variable {β ι : Type}

/-- Round and number of elements of the actions with key `k`. -/
def kmsg (k : CKey) (l : List (CAct β)) : List (Nat × Nat) :=
  l.filterMap (fun a => match a.body with
    | .comm k' _ _ n => if k' = k then some (a.round, n) else none
    | .other _ => none)

def ksum (X : List (Nat × Nat)) (r : Nat) : Nat := ((X.filter (fun x => x.1 = r)).map (·.2)).sum

theorem kmsg_amsg (k : CKey) (l : List (CAct β)) : kmsg k l = (l.filterMap amsg).filterMap (fun m => if m.2.1 = k then some (m.1, m.2.2) else none) := by
  unfold kmsg
  rw [List.filterMap_filterMap]
  apply List.filterMap_congr
  intro a _
  unfold amsg
  cases a.body with
  | other => rfl
  | comm k' s d n => rfl

theorem total_kmsg (l : List (CAct β)) (r : Nat) (k : CKey) : total l (r, k) = ksum (kmsg k l) r := by
  induction l with
  | nil => rfl
  | cons a l ih =>
    rw [total_cons, ih]
    unfold kmsg CAct.same CAct.count
    cases hb : a.body with
    | other op => simp [List.filterMap_cons, hb]
    | comm k' s d n =>
      simp only [List.filterMap_cons, hb]
      by_cases c1 : k' = k
      · by_cases c2 : a.round = r
        · simp [c1, c2, ksum]
        · simp [c1, c2, ksum]
      · simp [c1]

theorem kmsg_keys (k : CKey) (l : List (CAct β)) : (l.filterMap akey).filter (fun x => x.2 = k) = ((kmsg k l).map (·.1)).map (fun r => (r, k)) := by
  induction l with
  | nil => rfl
  | cons a l ih =>
    unfold kmsg akey at *
    cases hb : a.body with
    | other op => simp only [List.filterMap_cons, hb]; exact ih
    | comm k' s d n =>
      simp only [List.filterMap_cons, hb]
      by_cases c1 : k' = k
      · rw [List.filter_cons_of_pos (by simpa using c1), ih, if_pos c1]
        simp [c1]
      · rw [List.filter_cons_of_neg (by simpa using c1), ih, if_neg c1]

/-- Messages after combining. -/
theorem kmsg_comb1 (c : PCtx β) (B : Nat) (l : List (CAct β)) (k : CKey) :
    kmsg k (c.comb1 B l) = (firsts ((kmsg k l).map (·.1))).map (fun r => (3 * r + 1, ksum (kmsg k l) r)) := by
  rw [kmsg_amsg k (c.comb1 B l), comb1_msgs, List.filterMap_map]
  have h1 : (firsts (l.filterMap akey)).filterMap ((fun m : Nat × CKey × Nat => if m.2.1 = k then some (m.1, m.2.2) else none) ∘
      fun x => (3 * x.1 + 1, x.2, total l x)) = ((firsts (l.filterMap akey)).filter (fun x => x.2 = k)).map (fun x => (3 * x.1 + 1, ksum (kmsg k l) x.1)) := by
    generalize firsts (l.filterMap akey) = L
    induction L with
    | nil => rfl
    | cons x L ih =>
      by_cases c1 : x.2 = k
      · rw [List.filterMap_cons_some (b := (3 * x.1 + 1, total l x)) (by simp [c1]), List.filter_cons_of_pos (by simpa using c1), List.map_cons, ih, ← total_kmsg, ← c1]
      · rw [List.filterMap_cons_none (by simp [c1]), List.filter_cons_of_neg (by simpa using c1), ih]
  rw [h1, firsts_filter, kmsg_keys, firsts_map _ _ (fun x _ y _ e => (Prod.mk.inj e).1), List.map_map]
  rfl

theorem kmsg_perm (k : CKey) {l l' : List (CAct β)} (h : l.Perm l') : (kmsg k l).Perm (kmsg k l') := h.filterMap _

theorem sortOf_perm {cmp : Act (CBody β) × Nat → Act (CBody β) × Nat → Int} {l : List (CAct β)} {S : List (CAct β × Nat)} (h : SortOf cmp l S) :
    (S.map (·.1)).Perm l := by
  have := h.1.map (·.1)
  rwa [List.zipIdx_map_fst] at this

/-- Messages with key `k` after sorting. -/
theorem kmsg_sorted {me : Nat} {l : List (CAct β)} {S : List (CAct β × Nat)} (h : SortOf (cmp2phase me) l S) (k : CKey) :
    (kmsg k (S.map (·.1))).Pairwise (fun a b => a.1 ≤ b.1) := by
  unfold kmsg
  rw [List.pairwise_filterMap, List.pairwise_map]
  refine h.2.imp ?_
  intro a b hab x hx y hy
  have h1 := cmp2phase_round hab
  have e1 : x.1 = a.1.round := by
    cases hb : a.1.body with
    | other => rw [hb] at hx; cases hx
    | comm =>
      rw [hb] at hx
      simp only at hx
      split at hx
      · cases hx; rfl
      · cases hx
  have e2 : y.1 = b.1.round := by
    cases hb : b.1.body with
    | other => rw [hb] at hy; cases hy
    | comm =>
      rw [hb] at hy
      simp only at hy
      split at hy
      · cases hy; rfl
      · cases hy
  rw [e1, e2]
  exact h1

/-- Same messages before combining and sorting: same messages. -/
theorem kmsg_eq {c c' : PCtx β} {B B' me me' : Nat} {l l' : List (CAct β)} {S S' : List (CAct β × Nat)} {k k' : CKey}
    (h : SortOf (cmp2phase me) (c.comb1 B l) S) (h' : SortOf (cmp2phase me') (c'.comb1 B' l') S') (hk : kmsg k l = kmsg k' l') :
    kmsg k (S.map (·.1)) = kmsg k' (S'.map (·.1)) := by
  have p1 := kmsg_perm k (sortOf_perm h)
  have p2 := kmsg_perm k' (sortOf_perm h')
  rw [kmsg_comb1] at p1 p2
  rw [← hk] at p2
  refine List.Perm.eq_of_pairwise (le := fun a b => a.1 ≤ b.1) ?_ (kmsg_sorted h k) (kmsg_sorted h' k') (p1.trans p2.symm)
  intro a b ha hb h1 h2
  obtain ⟨r, _, rfl⟩ := List.mem_map.1 (p1.subset ha)
  obtain ⟨r', _, rfl⟩ := List.mem_map.1 (p2.subset hb)
  simp only at h1 h2
  have : r = r' := by omega
  rw [this]

/-! ### Actions of one process -/

/-- Actions with key `k`: round, number of elements, data in and out. -/
def wcomm (k : CKey) (y : Nat × WIt β) : Option (Nat × Nat × List β × List β) :=
  match y.2.body with
  | .comm k' _ _ n => if k' = k then some (y.1, n, y.2.out, y.2.inn) else none
  | .other _ => none

theorem kmsg_unw (k : CKey) (L : List (CKey × Nat × WIt β)) :
    kmsg k (L.map (fun x => unw x.2)) = ((L.map (·.2)).filterMap (wcomm k)).map (fun v => (v.1, v.2.1)) := by
  unfold kmsg
  rw [List.filterMap_map, List.filterMap_map, List.map_filterMap]
  apply List.filterMap_congr
  intro y _
  simp only [Function.comp, wcomm, unw]
  cases y.2.2.body with
  | other => rfl
  | comm k' s d n => by_cases c : k' = k <;> simp [c]

theorem wsend_wcomm (q : Nat) (L : List (Nat × WIt β)) : L.filterMap (wsend q) = (L.filterMap (wcomm (.send q))).map (fun v => (v.1, v.2.1, v.2.2.1)) ∧
    L.filterMap (wrecv q) = (L.filterMap (wcomm (.recv q))).map (fun v => (v.1, v.2.1, v.2.2.2)) := by
  rw [List.map_filterMap, List.map_filterMap]
  constructor <;>
  · apply List.filterMap_congr
    intro y _
    simp only [wcomm, wsend, wrecv]
    cases y.2.body with
    | other => rfl
    | comm k s d n =>
      cases k with
      | send t => by_cases c : t = q <;> simp [c]
      | recv t => by_cases c : t = q <;> simp [c]
      | red => simp
      | gred => simp

theorem comm_flat (e : CEnv) (k : CKey) (L : List (CKey × Nat × WIt β)) :
    L.flatMap (fun x => x.2.2.outK e k) = (if e.isIn k then ((L.map (·.2)).filterMap (wcomm k)).flatMap (·.2.2.1) else []) ∧
    L.flatMap (fun x => x.2.2.innK e k) = (if e.isOut k then ((L.map (·.2)).filterMap (wcomm k)).flatMap (·.2.2.2) else []) := by
  induction L with
  | nil => constructor <;> split <;> rfl
  | cons y L ih =>
    obtain ⟨i1, i2⟩ := ih
    rw [List.flatMap_cons, List.flatMap_cons, i1, i2, List.map_cons]
    cases hb : y.2.2.body with
    | other op => rw [List.filterMap_cons_none (by simp [wcomm, hb])]; simp [WIt.outK, WIt.innK, hb]
    | comm k' s d n =>
      by_cases c : k' = k
      · rw [List.filterMap_cons_some (b := (y.2.1, n, y.2.2.out, y.2.2.inn)) (by simp [wcomm, hb, c]), List.flatMap_cons, List.flatMap_cons]
        constructor
        · by_cases h : e.isIn k = true <;> simp [WIt.outK, hb, c, h]
        · by_cases h : e.isOut k = true <;> simp [WIt.innK, hb, c, h]
      · rw [List.filterMap_cons_none (by simp [wcomm, hb, c])]
        simp [WIt.outK, WIt.innK, hb, c]

theorem filterMap_rnd {α δ : Type} {f : α → Option δ} (ra : α → Nat) (rb : δ → Nat) (hf : ∀ y v, f y = some v → rb v = ra y) (r : Nat) (L : List α) :
    (L.filter (fun y => ra y = r)).filterMap f = (L.filterMap f).filter (fun y => rb y = r) := by
  induction L with
  | nil => rfl
  | cons y L ih =>
    cases e : f y with
    | none =>
      rw [List.filterMap_cons_none e]
      by_cases c : ra y = r
      · rw [List.filter_cons_of_pos (by simpa using c), List.filterMap_cons_none e, ih]
      · rw [List.filter_cons_of_neg (by simpa using c), ih]
    | some v =>
      have := hf y v e
      rw [List.filterMap_cons_some e]
      by_cases c : ra y = r
      · rw [List.filter_cons_of_pos (by simpa using c), List.filterMap_cons_some e, List.filter_cons_of_pos (by simpa [this] using c), ih]
      · rw [List.filter_cons_of_neg (by simpa using c), List.filter_cons_of_neg (by simpa [this] using c), ih]

/-- Key of a reduction. -/
def rk : CKey → Option (Int × Nat)
  | .red r op => some (r, op)
  | _ => none

theorem redKey_rk (k : CKey) (s d n : Nat) : redKey (β := β) (.comm k s d n) = rk k := by cases k <;> rfl

theorem wM_red (c : PCtx β) (M : MData β ι) (B : Nat) (a : CM) (ho : ∀ i o op, a.key = .gred i o op → use3 (transGroup c.n c.gs i) = true → transGroup c.n c.gs o ≠ []) (r : Int) (op : Nat) :
    (c.wM M 4 B a).filterMap (wcomm (.red r op)) = if a.key = .red r op then [(13, a.cnt, c.payK M a.key, c.datK M a.key)] else [] := by
  cases hg : notGred a.key with
  | true =>
    rw [wM_notGred c M 4 B hg]
    simp only [List.filterMap_cons, List.filterMap_nil, wcomm, CM.body]
    by_cases e : a.key = .red r op
    · simp [e]
    · simp [e]
  | false =>
    have ⟨i, o, op', hk⟩ : ∃ i o op', a.key = .gred i o op' := by
      cases hk : a.key with
      | gred i o op' => exact ⟨i, o, op', rfl⟩
      | send => rw [hk] at hg; cases hg
      | recv => rw [hk] at hg; cases hg
      | red => rw [hk] at hg; cases hg
    rw [wM_gred c M 4 B hk, if_neg (by rw [hk]; intro e; cases e), List.filterMap_eq_nil_iff]
    intro y hy
    unfold wcomm
    rcases (wG_items c _ _ _ _ _ _ _ (ho i o op' hk) _ _ y hy).kind with ⟨q, h, _⟩ | ⟨q, t, h, _⟩ | ⟨op, h, _⟩ | ⟨q, h, _⟩ | ⟨q, h, _⟩ <;> simp [h]

theorem wM_rk (c : PCtx β) (M : MData β ι) (B : Nat) (a : CM) (ho : ∀ i o op, a.key = .gred i o op → use3 (transGroup c.n c.gs i) = true → transGroup c.n c.gs o ≠ []) :
    (c.wM M 4 B a).filterMap (fun y => (redKey y.2.body).map (fun k => (y.1, k))) = ((rk a.key).map (fun k => (13, k))).toList := by
  cases hg : notGred a.key with
  | true =>
    rw [wM_notGred c M 4 B hg]
    simp only [List.filterMap_cons, List.filterMap_nil, CM.body, redKey_rk]
    cases rk a.key <;> rfl
  | false =>
    have ⟨i, o, op', hk⟩ : ∃ i o op', a.key = .gred i o op' := by
      cases hk : a.key with
      | gred i o op' => exact ⟨i, o, op', rfl⟩
      | send => rw [hk] at hg; cases hg
      | recv => rw [hk] at hg; cases hg
      | red => rw [hk] at hg; cases hg
    rw [wM_gred c M 4 B hk, hk]
    show _ = []
    rw [List.filterMap_eq_nil_iff]
    intro y hy
    rcases (wG_items c _ _ _ _ _ _ _ (ho i o op' hk) _ _ y hy).kind with ⟨q, h, _⟩ | ⟨q, t, h, _⟩ | ⟨op, h, _⟩ | ⟨q, h, _⟩ | ⟨q, h, _⟩ <;> simp [h, redKey]

theorem wMs_red (c : PCtx β) (M : MData β ι) (r : Int) (op : Nat) (l : List CM) (ho : ∀ a ∈ l, ∀ i o op, a.key = .gred i o op → use3 (transGroup c.n c.gs i) = true → transGroup c.n c.gs o ≠ []) : ∀ B,
    ((c.wMs M 4 B l).map (·.2)).filterMap (wcomm (.red r op)) =
      l.flatMap (fun a => if a.key = .red r op then [(13, a.cnt, c.payK M a.key, c.datK M a.key)] else []) ∧
    ((c.wMs M 4 B l).map (·.2)).filterMap (fun y => (redKey y.2.body).map (fun k => (y.1, k))) = ((l.map CM.key).filterMap rk).map (fun k => (13, k)) := by
  induction l with
  | nil => intro B; exact ⟨rfl, rfl⟩
  | cons a l ih =>
    intro B
    obtain ⟨i1, i2⟩ := ih (fun b hb => ho b (List.mem_cons_of_mem _ hb)) (B + c.gsize a)
    have e : ((c.wM M 4 B a).map (fun x => (a.key, x))).map (·.2) = c.wM M 4 B a := by
      rw [List.map_map]
      exact List.map_id _
    rw [PCtx.wMs, List.map_append, List.filterMap_append, List.filterMap_append, i1, i2, e, wM_red c M B a (ho a List.mem_cons_self), wM_rk c M B a (ho a List.mem_cons_self), List.flatMap_cons]
    refine ⟨rfl, ?_⟩
    rw [List.map_cons]
    cases h : rk a.key with
    | none => rw [List.filterMap_cons_none h]; rfl
    | some v => rw [List.filterMap_cons_some h]; rfl

theorem filter_all13 {α : Type} (L : List α) (r : α → Nat) (h : ∀ x ∈ L, r x = 13) : [12, 13, 14].flatMap (fun n => L.filter (fun y => r y = n)) = L := by
  have h1 : ∀ n, n ≠ 13 → L.filter (fun y => r y = n) = [] := by
    intro n hn
    rw [List.filter_eq_nil_iff]
    intro x hx hc
    rw [decide_eq_true_eq, h x hx] at hc
    exact hn hc.symm
  have h2 : L.filter (fun y => r y = 13) = L := by
    rw [List.filter_eq_self]
    intro x hx
    simpa using h x hx
  simp only [List.flatMap_cons, List.flatMap_nil, List.append_nil]
  rw [h1 12 (by decide), h1 14 (by decide), h2]
  simp

variable {c : PCtx β} {M : MData β ι} {del : CKey → ι → List β} {B1 B2 B3 : Nat} {m0 : Nat → β} {F : List (FIt ι)}

theorem C3_blocks {δ : Type} {f : Nat × WIt β → Option δ} (rb : δ → Nat) (hf : ∀ y v, f y = some v → rb v = y.1) :
    ((c.C3 M B1 B2 F).map (·.2)).filterMap f = [12, 13, 14].flatMap (fun r => (((c.wMs M 4 B2 (c.Ms B1 F)).map (·.2)).filterMap f).filter (fun y => rb y = r)) := by
  unfold PCtx.C3 blocks3
  rw [List.map_flatMap, List.filterMap_flatMap]
  apply List.flatMap_congr
  intro r _
  rw [← filterMap_rnd (fun y : Nat × WIt β => y.1) rb hf, List.filter_map]
  rfl

theorem wcomm_round (k : CKey) (y : Nat × WIt β) (v : Nat × Nat × List β × List β) (h : wcomm k y = some v) : v.1 = y.1 := by
  unfold wcomm at h
  split at h
  · split at h
    · cases h; rfl
    · cases h
  · cases h

/-- Reductions over all processes. -/
theorem POK.msOuts (h : POK c M del B1 m0 F) : ∀ a ∈ c.Ms B1 F, ∀ i o op, a.key = .gred i o op → use3 (transGroup c.n c.gs i) = true → transGroup c.n c.gs o ≠ [] := by
  intro a ha i o op hk
  obtain ⟨f, hf, e⟩ := key_inj (Ms_cnt c B1 F a ha).2
  exact h.outs f hf i o op (e.trans hk)

theorem POK.red_C3 (h : POK c M del B1 m0 F) (r : Int) (op : Nat) :
    ((c.C3 M B1 B2 F).map (·.2)).filterMap (wcomm (.red r op)) =
      if CKey.red r op ∈ F.map FIt.key then [(13, (ixOf F (.red r op)).length, c.payK M (.red r op), c.datK M (.red r op))] else [] := by
  rw [C3_blocks (fun v => v.1) (wcomm_round _), (wMs_red c M r op _ h.msOuts B2).1]
  have e : (c.Ms B1 F).flatMap (fun a => if a.key = .red r op then [(13, a.cnt, c.payK M a.key, c.datK M a.key)] else []) =
      if CKey.red r op ∈ F.map FIt.key then [(13, (ixOf F (.red r op)).length, c.payK M (.red r op), c.datK M (.red r op))] else [] := by
    obtain ⟨f1, f2⟩ := flat_key (Ms_nodup c B1 F) (fun a => if a.key = .red r op then [(13, a.cnt, c.payK M a.key, c.datK M a.key)] else []) (.red r op)
      (fun a _ hne => if_neg hne)
    by_cases hk : CKey.red r op ∈ (c.Ms B1 F).map CM.key
    · obtain ⟨a, ha, e⟩ := List.mem_map.1 hk
      rw [f1 a ha e, if_pos e, e, (Ms_cnt c B1 F a ha).1, e, if_pos]
      rw [Ms_keys'] at hk
      exact mem_firsts.1 hk
    · rw [f2 hk, if_neg]
      rw [Ms_keys'] at hk
      exact fun hh => hk (mem_firsts.2 hh)
  rw [e]
  apply filter_all13
  intro x hx
  split at hx
  · rw [List.mem_singleton] at hx; rw [hx]
  · cases hx

theorem POK.redKey_C3 (h : POK c M del B1 m0 F) (B2 : Nat) : ((c.C3 M B1 B2 F).map (·.2)).filterMap (fun y => redKey y.2.body) = (firsts (F.map FIt.key)).filterMap rk := by
  have h1 := C3_blocks (c := c) (M := M) (B1 := B1) (B2 := B2) (F := F) (f := fun y => (redKey y.2.body).map (fun k => (y.1, k))) (fun v => v.1) (by
    intro y v hv
    cases e : redKey y.2.body with
    | none => rw [e] at hv; cases hv
    | some k => rw [e] at hv; cases hv; rfl)
  rw [(wMs_red c M 0 0 _ h.msOuts B2).2, filter_all13, Ms_keys'] at h1
  · have h2 := congrArg (List.map Prod.snd) h1
    rw [List.map_map, List.map_filterMap] at h2
    refine Eq.trans ?_ (h2.trans ?_)
    · apply List.filterMap_congr
      intro y _
      cases redKey y.2.body <;> rfl
    · exact List.map_id _
  · intro x hx
    obtain ⟨k, _, rfl⟩ := List.mem_map.1 hx
    rfl

theorem rk_nodup (F : List (FIt ι)) : ((firsts (F.map FIt.key)).filterMap rk).Nodup := by
  apply (firsts_nodup (F.map FIt.key)).filterMap
  intro a a' b h1 h2
  cases a <;> cases h1
  cases a' <;> cases h2
  rfl

theorem V3_parts {δ : Type} (g : CAct β → Option δ) (hg : ∀ a : CAct β, (∃ op, a.body = .other op) → g a = none) :
    (c.V3 M B1 B2 F).filterMap g = ((c.C3 M B1 B2 F).map (fun x => unw x.2)).filterMap g := by
  have key : ∀ (r : Nat) (L : List (CAct β)), (∀ a ∈ L, ∃ op, a.body = .other op ∧ op.key = none) → (L.map (fun a => (⟨r, a.body⟩ : CAct β))).filterMap g = [] := by
    intro r L hL
    rw [List.filterMap_eq_nil_iff]
    intro a ha
    obtain ⟨b, hb, rfl⟩ := List.mem_map.1 ha
    obtain ⟨op, e, _⟩ := hL b hb
    exact hg _ ⟨op, e⟩
  unfold PCtx.V3
  rw [List.filterMap_append, List.filterMap_append, key 10 _ (A1_other c B1 F).1, key 16 _ (A1_other c B1 F).2, List.append_nil, List.nil_append]

theorem kmsg_V3 (k : CKey) : kmsg k (c.V3 M B1 B2 F) = (((c.C3 M B1 B2 F).map (·.2)).filterMap (wcomm k)).map (fun v => (v.1, v.2.1)) := by
  rw [← kmsg_unw]
  unfold kmsg
  apply V3_parts
  rintro a ⟨op, e⟩
  rw [e]

/-! ### Collectives -/

theorem firstsGo_filterMap {κ δ : Type} [DecidableEq κ] (g : κ → Option δ) (l : List κ) : ∀ seen, (l.filterMap g).Nodup →
    (∀ x ∈ seen, ∀ v, g x = some v → v ∉ l.filterMap g) → (firstsGo seen l).filterMap g = l.filterMap g := by
  induction l with
  | nil => intro seen _ _; rfl
  | cons a l ih =>
    intro seen hn hs
    rw [firstsGo]
    cases e : g a with
    | none =>
      rw [List.filterMap_cons_none e] at hn hs ⊢
      split
      · exact ih seen hn hs
      · rw [List.filterMap_cons_none e]
        apply ih _ hn
        intro x hx v hv
        rcases List.mem_cons.1 hx with rfl | hx
        · rw [e] at hv; cases hv
        · exact hs x hx v hv
    | some v =>
      rw [List.filterMap_cons_some e] at hn hs ⊢
      rw [List.nodup_cons] at hn
      split
      · rename_i hm
        exact absurd List.mem_cons_self (hs a hm v e)
      · rw [List.filterMap_cons_some e, ih _ hn.2]
        intro x hx w hw
        rcases List.mem_cons.1 hx with rfl | hx
        · rw [e] at hw; cases hw; exact hn.1
        · exact fun hm => hs x hx w hw (List.mem_cons_of_mem _ hm)

theorem POK.redKey_comb1 (h : POK c M del B1 m0 F) (B2 B3 : Nat) : (c.comb1 B3 (c.V3 M B1 B2 F)).filterMap (fun a => redKey a.body) = (firsts (F.map FIt.key)).filterMap rk := by
  have h1 : ∀ l : List (CAct β), l.filterMap (fun a => redKey a.body) = (l.filterMap amsg).filterMap (fun m => rk m.2.1) := by
    intro l
    rw [List.filterMap_filterMap]
    apply List.filterMap_congr
    intro a _
    unfold amsg
    cases hb : a.body with
    | other => rfl
    | comm k s d n => exact redKey_rk k s d n
  have h2 : ∀ l : List (CAct β), l.filterMap (fun a => redKey a.body) = (l.filterMap akey).filterMap (fun x => rk x.2) := by
    intro l
    rw [List.filterMap_filterMap]
    apply List.filterMap_congr
    intro a _
    unfold akey
    cases hb : a.body with
    | other => rfl
    | comm k s d n => exact redKey_rk k s d n
  have h3 : (c.V3 M B1 B2 F).filterMap (fun a => redKey a.body) = (firsts (F.map FIt.key)).filterMap rk := by
    rw [V3_parts, ← h.redKey_C3 B2, List.filterMap_map, List.filterMap_map]
    · rfl
    · rintro a ⟨op, e⟩
      rw [e]; rfl
  rw [h1, comb1_msgs, List.filterMap_map, ← h3, h2]
  apply firstsGo_filterMap
  · show ((List.filterMap akey _).filterMap (fun x => rk x.2)).Nodup
    rw [← h2, h3]
    exact rk_nodup F
  · intro x hx
    cases hx

/-- Rounds of the messages. -/
theorem comb1_round {a : CAct β} {k : CKey} {s d n : Nat} (ha : a ∈ c.comb1 B3 (c.V3 M B1 B2 F)) (hb : a.body = .comm k s d n) :
    (a.round, n) ∈ kmsg k (c.comb1 B3 (c.V3 M B1 B2 F)) ∧ (a.round = 37 ∨ a.round = 40 ∨ a.round = 43) := by
  have h1 : (a.round, n) ∈ kmsg k (c.comb1 B3 (c.V3 M B1 B2 F)) := List.mem_filterMap.2 ⟨a, ha, by rw [hb]; simp⟩
  refine ⟨h1, ?_⟩
  rw [kmsg_comb1] at h1
  obtain ⟨r, hr, e⟩ := List.mem_map.1 h1
  have hr := mem_firsts.1 hr
  rw [kmsg_V3] at hr
  obtain ⟨x, hx, rfl⟩ := List.mem_map.1 hr
  obtain ⟨v, hv, rfl⟩ := List.mem_map.1 hx
  obtain ⟨y, hy, e2⟩ := List.mem_filterMap.1 hv
  obtain ⟨z, hz, rfl⟩ := List.mem_map.1 hy
  have h3 := wcomm_round _ _ _ e2
  have h4 := (C3_mem c M B1 B2 F z hz).2
  simp only [Prod.mk.injEq] at e
  omega

theorem POK.comb1_red (h : POK c M del B1 m0 F) {a : CAct β} {r : Int} {op s d n : Nat} (ha : a ∈ c.comb1 B3 (c.V3 M B1 B2 F)) (hb : a.body = .comm (.red r op) s d n) :
    a.round = 40 ∧ n = (ixOf F (.red r op)).length ∧ CKey.red r op ∈ F.map FIt.key := by
  have h1 := (comb1_round ha hb).1
  rw [kmsg_comb1, kmsg_V3, h.red_C3] at h1
  by_cases c1 : CKey.red r op ∈ F.map FIt.key
  · rw [if_pos c1] at h1
    simp only [List.map_cons, List.map_nil] at h1
    have e : firsts [13] = [13] := by decide
    rw [e] at h1
    simp [ksum] at h1
    exact ⟨h1.1, h1.2, c1⟩
  · rw [if_neg c1] at h1
    cases h1

theorem kind_red {b : CBody β} {k : Int × Nat} (h : redKey b = some k) : CBody.kind b = .other ∧ ∃ s d n, b = .comm (.red k.1 k.2) s d n := by
  cases b with
  | other => cases h
  | comm k' s d n =>
    cases k' with
    | red r op => cases h; exact ⟨rfl, s, d, n, rfl⟩
    | send => cases h
    | recv => cases h
    | gred => cases h

/-- The order of reductions over all processes is kept. -/
theorem POK.redKey_sorted (h : POK c M del B1 m0 F) {me : Nat} {S : List (CAct β × Nat)} (hS : SortOf (cmp2phase me) (c.comb1 B3 (c.V3 M B1 B2 F)) S) :
    S.filterMap (fun x => redKey x.1.body) = (firsts (F.map FIt.key)).filterMap rk := by
  rw [← h.redKey_comb1 B2 B3]
  generalize hl : c.comb1 B3 (c.V3 M B1 B2 F) = l at hS
  have hz : l.filterMap (fun a => redKey a.body) = l.zipIdx.filterMap (fun x => redKey x.1.body) := by
    conv_lhs => rw [← List.zipIdx_map_fst 0 l]
    rw [List.filterMap_map]
    rfl
  have key : ∀ L : List (CAct β × Nat), L.filterMap (fun x => redKey x.1.body) = (L.filter (fun x => (redKey x.1.body).isSome)).filterMap (fun x => redKey x.1.body) := by
    intro L
    rw [List.filterMap_filter]
    apply List.filterMap_congr
    intro x _
    cases redKey x.1.body <;> simp
  rw [hz, key, key l.zipIdx]
  congr 1
  refine List.Perm.eq_of_pairwise (le := fun a b => a.2 ≤ b.2) ?_ ?_ ?_ (hS.1.filter _)
  · intro a b ha hb h1 h2
    have ha' := List.mem_zipIdx_iff_getElem?.1 (hS.1.subset (List.mem_filter.1 ha).1)
    have hb' := List.mem_zipIdx_iff_getElem?.1 (List.mem_filter.1 hb).1
    have e : a.2 = b.2 := by omega
    rw [e, hb', Option.some.injEq] at ha'
    exact Prod.ext ha'.symm e
  · have h1 := hS.2.filter (fun x => (redKey x.1.body).isSome)
    have h2 : (S.filter (fun x => (redKey x.1.body).isSome)).Pairwise (fun a b => a ∈ S.filter (fun x => (redKey x.1.body).isSome) ∧ b ∈ S.filter (fun x => (redKey x.1.body).isSome)) :=
      List.pairwise_of_forall_mem_list (fun a ha b hb => ⟨ha, hb⟩)
    refine (h1.and h2).imp ?_
    rintro a b ⟨hab, ha, hb⟩
    have prop : ∀ x ∈ S.filter (fun x => (redKey x.1.body).isSome), x.1.round = 40 ∧ CBody.kind x.1.body = .other := by
      intro x hx
      obtain ⟨m1, m2⟩ := List.mem_filter.1 hx
      obtain ⟨k, hk⟩ := Option.isSome_iff_exists.1 m2
      obtain ⟨k1, s, d, n, k2⟩ := kind_red hk
      have := List.fst_mem_of_mem_zipIdx (hS.1.subset m1)
      rw [← hl] at this
      exact ⟨(h.comb1_red this k2).1, k1⟩
    obtain ⟨a1, a2⟩ := prop a ha
    obtain ⟨b1, b2⟩ := prop b hb
    rw [cmp2phase_le_iff] at hab
    simp only [CAct.toAct, a1, a2, b1, b2] at hab
    omega
  · exact (zipIdx_lt l 0).filter _ |>.imp (fun h => Nat.le_of_lt h)

end Laik.Mp
