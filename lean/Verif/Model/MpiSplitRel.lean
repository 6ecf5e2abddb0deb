import Verif.Model.MpiSplitWalk
/-!
# Independence and messages of the split group reductions
-/

namespace Laik.Mp

variable {β ι : Type}

def isO (b : CBody β) : Bool :=
  match b with
  | .comm _ _ _ _ => false
  | .other _ => true

/-- Actions of same round are independent or both local. -/
def WRel (e : CEnv) (y z : Nat × WIt β) : Prop := y.1 = z.1 → MI e y.2.body z.2.body ∨ (isO y.2.body = true ∧ isO z.2.body = true)

theorem mi_sends (e : CEnv) (q q' a d n a' d' n' : Nat) : MI (β := β) e (.comm (.send q) a d n) (.comm (.send q') a' d' n') := by
  constructor <;>
  · intro x hx
    simp [wr, CEnv.isOut] at hx

theorem wG_pairwise (c : PCtx β) (B r s d n : Nat) (ins outs : List Nat) (pay : Nat → List β) (res : List β)
    (hs : c.me ∈ ins → ∀ x, B ≤ x → x < B + c.gsz n ins outs → ¬ (s ≤ x ∧ x < s + n * c.es)) :
    (c.wG B r s d n ins outs pay res).Pairwise (WRel c.env) := by
  have hrecv : (c.wRecvs B r n ins pay).Pairwise (WRel c.env) := by
    unfold PCtx.wRecvs
    rw [List.pairwise_map]
    refine (zipIdx_lt _ 0).imp ?_
    intro y z hyz _
    left
    have hd : y.2 ≠ z.2 := by omega
    constructor
    · intro x hx
      simp only [wr, CEnv.isOut, Bool.true_and, decide_eq_true_eq] at hx
      refine ⟨(by rintro ⟨h, _⟩; cases h), ?_⟩
      rw [Bool.eq_false_iff]
      intro hz
      simp only [wr, CEnv.isOut, Bool.true_and, decide_eq_true_eq] at hz
      exact slots_disj hd hx.1 hx.2 hz
    · rintro x _ ⟨h, _⟩
      cases h
  have hrecv0 : ∀ y ∈ c.wRecvs B r n ins pay, y.1 = 3 * r := by
    intro y hy
    obtain ⟨x, hx, rfl⟩ := List.mem_map.1 hy
    rfl
  have hred : ∀ y ∈ (c.slotReduce B r s d n ins).map wloc, y.1 = 3 * r + 1 ∧ isO y.2.body = true := by
    intro y hy
    obtain ⟨x, hx, rfl⟩ := List.mem_map.1 hy
    obtain ⟨h1, op, h2, _⟩ := slotReduce_shape c B r s d n ins x hx
    refine ⟨h1, ?_⟩
    show isO x.body = true
    rw [h2]; rfl
  have hredP : ((c.slotReduce B r s d n ins).map wloc).Pairwise (WRel c.env) :=
    List.pairwise_of_forall_mem_list (fun y hy z hz _ => Or.inr ⟨(hred y hy).2, (hred z hz).2⟩)
  have hsnd : ∀ (a k : Nat) (v : List β) (l : List Nat), (l.map (fun q => ((k, ⟨.comm (.send q) a 0 n, v, []⟩) : Nat × WIt β))).Pairwise (WRel c.env) := by
    intro a k v l
    rw [List.pairwise_map]
    exact List.pairwise_of_forall (fun x y _ => Or.inl (mi_sends ..))
  have hrr : (c.wRecvs B r n ins pay ++ (c.slotReduce B r s d n ins).map wloc).Pairwise (WRel c.env) := by
    refine List.pairwise_append.2 ⟨hrecv, hredP, ?_⟩
    intro y hy z hz h
    rw [hrecv0 y hy, (hred z hz).1] at h
    omega
  unfold PCtx.wG
  by_cases c1 : use3 ins = true
  · rw [if_pos c1]
    unfold PCtx.w3
    split
    · refine List.pairwise_append.2 ⟨?_, ?_, ?_⟩
      · split <;> simp
      · split <;> simp
      · intro y hy z hz h
        split at hy
        · split at hz
          · rw [List.mem_singleton] at hy hz
            subst hy; subst hz
            simp only at h
            omega
          · cases hz
        · cases hy
    · refine List.pairwise_append.2 ⟨hrr, hsnd _ _ _ _, ?_⟩
      intro y hy z hz h
      obtain ⟨q, _, rfl⟩ := List.mem_map.1 hz
      simp only at h
      rcases List.mem_append.1 hy with hy | hy
      · rw [hrecv0 y hy] at h; omega
      · rw [(hred y hy).1] at h; omega
  · rw [if_neg c1]
    unfold PCtx.w2
    refine List.pairwise_append.2 ⟨?_, ?_, ?_⟩
    · split
      · exact hsnd _ _ _ _
      · exact List.Pairwise.nil
    · split
      · exact hrr
      · exact List.Pairwise.nil
    · intro y hy z hz h
      by_cases c2 : c.me ∈ ins
      swap
      · rw [if_neg c2] at hy; cases hy
      rw [if_pos c2] at hy
      by_cases c3 : c.me ∈ outs
      swap
      · rw [if_neg c3] at hz; cases hz
      rw [if_pos c3] at hz
      have hsz : c.gsz n ins outs = c.slotSize n ins := by unfold PCtx.gsz; rw [if_neg c1, if_pos c3]
      rw [hsz] at hs
      obtain ⟨q, _, rfl⟩ := List.mem_map.1 hy
      rcases List.mem_append.1 hz with hz | hz
      · obtain ⟨x, hx, rfl⟩ := List.mem_map.1 hz
        left
        have ht := List.snd_lt_of_mem_zipIdx hx
        constructor
        · intro x hx
          simp [wr, CEnv.isOut] at hx
        · rintro w hw ⟨_, h1⟩
          simp only [wr, CEnv.isOut, Bool.true_and, decide_eq_true_eq] at hw
          have he : c.env.elemsize = c.es := rfl
          rw [he] at hw h1
          refine hs c2 w (by omega) ?_ h1
          unfold PCtx.slotSize
          have := Nat.mul_le_mul_right (n * c.es) (show x.2 + 1 ≤ (ins.filter (fun q => q ≠ c.me)).length by omega)
          rw [Nat.succ_mul] at this
          omega
      · rw [(hred z hz).1] at h
        simp only at h
        omega

theorem pairwise_parts {α τ : Type} [DecidableEq τ] (tag : α → τ) {Q : α → α → Prop} (L : List α)
    (h1 : ∀ t, (L.filter (fun x => tag x = t)).Pairwise Q) (h2 : ∀ y ∈ L, ∀ z ∈ L, tag y ≠ tag z → Q y z) : L.Pairwise Q := by
  induction L with
  | nil => exact List.Pairwise.nil
  | cons y L ih =>
    rw [List.pairwise_cons]
    constructor
    · intro z hz
      by_cases c : tag y = tag z
      · have := h1 (tag y)
        rw [List.filter_cons_of_pos (by simp), List.pairwise_cons] at this
        exact this.1 z (List.mem_filter.2 ⟨hz, by simp [c]⟩)
      · exact h2 y List.mem_cons_self z (List.mem_cons_of_mem _ hz) c
    · refine ih ?_ (fun a ha b hb => h2 a (List.mem_cons_of_mem _ ha) b (List.mem_cons_of_mem _ hb))
      intro t
      exact (h1 t).sublist ((List.sublist_cons_self _ _).filter _)

theorem blocks_pairwise {α : Type} (rd : α → Nat) {Q : α → α → Prop} (rs : List Nat) (hrs : rs.Pairwise (· < ·)) (L : List α) (h : L.Pairwise Q) :
    (rs.flatMap (fun r => L.filter (fun x => rd x = r))).Pairwise (fun y z => rd y < rd z ∨ (rd y = rd z ∧ Q y z)) := by
  induction rs with
  | nil => exact List.Pairwise.nil
  | cons r rs ih =>
    rw [List.pairwise_cons] at hrs
    rw [List.flatMap_cons]
    refine List.pairwise_append.2 ⟨?_, ih hrs.2, ?_⟩
    · have h1 := h.sublist (List.filter_sublist (p := fun x => decide (rd x = r)))
      have h2 : (L.filter (fun x => decide (rd x = r))).Pairwise (fun y z => rd y = r ∧ rd z = r) :=
        List.pairwise_of_forall_mem_list (fun a ha b hb => ⟨by simpa using (List.mem_filter.1 ha).2, by simpa using (List.mem_filter.1 hb).2⟩)
      exact (h1.and h2).imp (fun {y z} hh => Or.inr ⟨hh.2.1.trans hh.2.2.symm, hh.1⟩)
    · intro y hy z hz
      obtain ⟨r', hr', hz⟩ := List.mem_flatMap.1 hz
      have e1 : rd y = r := by simpa using (List.mem_filter.1 hy).2
      have e2 : rd z = r' := by simpa using (List.mem_filter.1 hz).2
      left
      rw [e1, e2]
      exact hrs.1 r' hr'

variable {c : PCtx β} {M : MData β ι} {B : Nat} {m : Nat → β} {l : List CM}

theorem wM_pairwise (h : MOK c M B m l) (r : Nat) {a : CM} (ha : a ∈ l) : (c.wM M r (c.slotB B l a.key) a).Pairwise (WRel c.env) := by
  cases hg : notGred a.key with
  | true => rw [wM_notGred c M r _ hg]; exact List.pairwise_singleton _ _
  | false =>
    cases hk : a.key with
    | send => rw [hk] at hg; cases hg
    | recv => rw [hk] at hg; cases hg
    | red => rw [hk] at hg; cases hg
    | gred i o op =>
      rw [wM_gred c M r _ hk]
      apply wG_pairwise
      intro hi x h1 h2 h3
      rw [← gsize_gred c hk] at h2
      rw [← hk] at h1 h2
      have hB := h.slotIn ha ⟨h1, h2⟩
      exact (h.buf a ha x hB.1 hB.2).1 ((rd_gred c hk x).2 ⟨hi, h3⟩)

theorem wMs_pairwise (h : MOK c M B m l) (r : Nat) : (c.wMs M r B l).Pairwise (fun y z => WRel c.env y.2 z.2) := by
  apply pairwise_parts (fun x : CKey × Nat × WIt β => x.1)
  · intro t
    by_cases hk : t ∈ l.map CM.key
    · obtain ⟨a, ha, rfl⟩ := List.mem_map.1 hk
      rw [(wMs_part c M r l B h.nodup).1 a ha, List.pairwise_map]
      exact wM_pairwise h r ha
    · rw [(wMs_part c M r l B h.nodup).2 t hk]
      exact List.Pairwise.nil
  · intro y hy z hz hne _
    left
    obtain ⟨a, ha, ea, wa⟩ := wMs_mem c M r h.nodup hy
    obtain ⟨b, hb, eb, wb⟩ := wMs_mem c M r h.nodup hz
    rw [ea, eb] at hne
    have za : ∀ x, rd c.env y.2.2.body x ∨ wr c.env y.2.2.body x = true → c.zone B l a.key x := by
      intro x hx
      obtain ⟨f1, f2⟩ := wM_fp h r ha _ wa x
      refine ⟨a, ha, rfl, ?_⟩
      rcases hx with hx | hx
      · exact f1 hx
      · exact Or.inr (f2 hx)
    have zb : ∀ x, rd c.env z.2.2.body x ∨ wr c.env z.2.2.body x = true → c.zone B l b.key x := by
      intro x hx
      obtain ⟨f1, f2⟩ := wM_fp h r hb _ wb x
      refine ⟨b, hb, rfl, ?_⟩
      rcases hx with hx | hx
      · exact f1 hx
      · exact Or.inr (f2 hx)
    constructor
    · intro x hx
      have hz := h.zones ha (fun e => hne e.symm) ((wM_fp h r ha _ wa x).2 hx)
      refine ⟨fun hh => hz (zb x (Or.inl hh)), ?_⟩
      rw [Bool.eq_false_iff]
      exact fun hh => hz (zb x (Or.inr hh))
    · intro x hx hh
      exact h.zones hb hne ((wM_fp h r hb _ wb x).2 hx) (za x (Or.inl hh))

theorem key_cases {e : CEnv} {inp : CKey → Nat → β} {a b : CAct β} (ha : ∀ op, a.body = .other op → op.key = none)
    (hb : ∀ op, b.body = .other op → op.key = none) : sameKey a b ∨ KeyIndep (a.op e inp) (b.op e inp) := by
  cases h1 : a.body with
  | other op =>
    right
    intro k hk
    unfold CAct.op at hk
    rw [h1] at hk
    simp only [CBody.op] at hk
    rw [ha op h1] at hk
    cases hk
  | comm k s d n =>
    cases h2 : b.body with
    | other op =>
      right
      intro k' _ hk
      unfold CAct.op at hk
      rw [h2] at hk
      simp only [CBody.op] at hk
      rw [hb op h2] at hk
      cases hk
    | comm k' s' d' n' =>
      by_cases c : k = k'
      · subst c
        exact Or.inl ⟨k, s, d, n, s', d', n', h1, h2⟩
      · right
        intro k'' hk hk'
        unfold CAct.op at hk hk'
        rw [h1] at hk
        rw [h2] at hk'
        simp only [CBody.op, commOp, Option.some.injEq] at hk hk'
        exact c (hk.trans hk'.symm)

theorem wMs_nokey (h : MOK c M B m l) (r : Nat) : ∀ y ∈ c.wMs M r B l, ∀ op, y.2.2.body = .other op → op.key = none := by
  intro y hy op e
  obtain ⟨a, ha, _, hw⟩ := wMs_mem c M r h.nodup hy
  cases hg : notGred a.key with
  | true =>
    rw [wM_notGred c M r _ hg, List.mem_singleton] at hw
    rw [hw] at e
    cases e
  | false =>
    cases hk : a.key with
    | send => rw [hk] at hg; cases hg
    | recv => rw [hk] at hg; cases hg
    | red => rw [hk] at hg; cases hg
    | gred i o op' =>
      rw [wM_gred c M r _ hk] at hw
      have hi := wG_items c _ r a.src a.dst a.cnt _ _ (h.outs a ha i o op' hk) _ _ y.2 hw
      rcases hi.kind with ⟨q, e', _, hm⟩ | ⟨q, t, e', _, hm⟩ | ⟨op', e', _, hn, _⟩ | ⟨q, e', _, ho⟩ | ⟨q, e', _, ho⟩
      · rw [e'] at e; cases e
      · rw [e'] at e; cases e
      · rw [e'] at e; cases e; exact hn
      · rw [e'] at e; cases e
      · rw [e'] at e; cases e

/-- The sorted split actions fulfil the requirements for combining. -/
theorem split_seqRel (h : MOK c M B m l) (r : Nat) (inp : CKey → Nat → β) :
    ((blocks3 r (c.wMs M r B l)).map (fun x => unw x.2)).Pairwise (SeqRel true c.env inp) := by
  rw [List.pairwise_map]
  have h1 := blocks_pairwise (fun x : CKey × Nat × WIt β => x.2.1) [3 * r, 3 * r + 1, 3 * r + 2] (by simp) (c.wMs M r B l) (wMs_pairwise h r)
  have h2 : (blocks3 r (c.wMs M r B l)).Pairwise (fun y z => y ∈ c.wMs M r B l ∧ z ∈ c.wMs M r B l) := by
    apply List.pairwise_of_forall_mem_list
    intro y hy z hz
    unfold blocks3 at hy hz
    obtain ⟨_, _, hy⟩ := List.mem_flatMap.1 hy
    obtain ⟨_, _, hz⟩ := List.mem_flatMap.1 hz
    exact ⟨(List.mem_filter.1 hy).1, (List.mem_filter.1 hz).1⟩
  refine (h1.and h2).imp ?_
  rintro y z ⟨hyz, hy, hz⟩
  rcases hyz with hlt | ⟨heq, hw⟩
  · exact ⟨Nat.le_of_lt hlt, fun he => absurd he (Nat.ne_of_lt hlt)⟩
  · refine ⟨Nat.le_of_eq heq, fun _ => ?_⟩
    rcases hw heq with hmi | ⟨o1, o2⟩
    · left
      exact ⟨(mi_iff c.env inp _ _).2 hmi, key_cases (wMs_nokey h r y hy) (wMs_nokey h r z hz)⟩
    · right
      refine ⟨rfl, ?_, ?_⟩
      · unfold CAct.isOth unw
        unfold isO at o1
        exact o1
      · unfold CAct.isOth unw
        unfold isO at o2
        exact o2

/-! ### Messages -/

def wsend (q : Nat) (y : Nat × WIt β) : Option (Nat × Nat × List β) :=
  match y.2.body with
  | .comm (.send t) _ _ n => if t = q then some (y.1, n, y.2.out) else none
  | _ => none

def wrecv (q : Nat) (y : Nat × WIt β) : Option (Nat × Nat × List β) :=
  match y.2.body with
  | .comm (.recv t) _ _ n => if t = q then some (y.1, n, y.2.inn) else none
  | _ => none

/-- `p` sends its input of a group reduction to `q`. -/
def g0 (ins outs : List Nat) (p q : Nat) : Prop := p ∈ ins ∧ p ≠ q ∧ if use3 ins then q = outs.headD 0 else q ∈ outs

/-- `p` sends the result to `q`. -/
def g2 (ins outs : List Nat) (p q : Nat) : Prop := use3 ins = true ∧ p = outs.headD 0 ∧ q ∈ outs ∧ p ≠ q

instance (ins outs : List Nat) (p q : Nat) : Decidable (g0 ins outs p q) := by unfold g0; infer_instance
instance (ins outs : List Nat) (p q : Nat) : Decidable (g2 ins outs p q) := by unfold g2; infer_instance

theorem filterMap_pick {α : Type} (l : List Nat) (hn : l.Nodup) (q : Nat) (P : Nat → Bool) (v : α) :
    (l.filter P).filterMap (fun t => if t = q then some v else none) = if q ∈ l ∧ P q = true then [v] else [] := by
  induction l with
  | nil => simp
  | cons t l ih =>
    rw [List.nodup_cons] at hn
    by_cases c1 : P t = true
    · rw [List.filter_cons_of_pos c1]
      by_cases c2 : t = q
      · subst c2
        rw [List.filterMap_cons_some (f := fun s => if s = t then some v else none) (b := v) (by simp), ih hn.2, if_neg (fun h => hn.1 h.1), if_pos ⟨List.mem_cons_self, c1⟩]
      · rw [List.filterMap_cons_none (by simp [c2]), ih hn.2]
        congr 1
        rw [eq_iff_iff]
        constructor
        · rintro ⟨h1, h2⟩; exact ⟨List.mem_cons_of_mem _ h1, h2⟩
        · rintro ⟨h1, h2⟩
          rcases List.mem_cons.1 h1 with h | h
          · exact absurd h.symm c2
          · exact ⟨h, h2⟩
    · rw [List.filter_cons_of_neg c1, ih hn.2]
      congr 1
      rw [eq_iff_iff]
      constructor
      · rintro ⟨h1, h2⟩; exact ⟨List.mem_cons_of_mem _ h1, h2⟩
      · rintro ⟨h1, h2⟩
        rcases List.mem_cons.1 h1 with h | h
        · exact absurd (h ▸ h2) c1
        · exact ⟨h, h2⟩

theorem wsends_send (q k a n : Nat) (v : List β) (l : List Nat) :
    (l.map (fun t => ((k, ⟨.comm (.send t) a 0 n, v, []⟩) : Nat × WIt β))).filterMap (wsend q) = l.filterMap (fun t => if t = q then some (k, n, v) else none) := by
  rw [List.filterMap_map]
  rfl

theorem wsends_recv (q k a n : Nat) (v : List β) (l : List Nat) :
    (l.map (fun t => ((k, ⟨.comm (.send t) a 0 n, v, []⟩) : Nat × WIt β))).filterMap (wrecv q) = [] := by
  rw [List.filterMap_map, List.filterMap_eq_nil_iff]
  intro t _
  rfl

theorem wRecvs_send (c : PCtx β) (B r n : Nat) (ins : List Nat) (pay : Nat → List β) (q : Nat) :
    (c.wRecvs B r n ins pay).filterMap (wsend q) = [] := by
  unfold PCtx.wRecvs
  rw [List.filterMap_map, List.filterMap_eq_nil_iff]
  intro t _
  rfl

theorem wRecvs_recv (c : PCtx β) (B r n : Nat) (ins : List Nat) (pay : Nat → List β) (q : Nat) (hn : ins.Nodup) :
    (c.wRecvs B r n ins pay).filterMap (wrecv q) = if q ∈ ins ∧ q ≠ c.me then [(3 * r, n, pay q)] else [] := by
  have h1 : (c.wRecvs B r n ins pay).filterMap (wrecv q) = ((ins.filter (fun t => t ≠ c.me)).zipIdx.map (·.1)).filterMap (fun t => if t = q then some (3 * r, n, pay q) else none) := by
    unfold PCtx.wRecvs
    rw [List.filterMap_map, List.filterMap_map]
    apply List.filterMap_congr
    intro x _
    show (if x.1 = q then some (3 * r, n, pay x.1) else none) = if x.1 = q then some (3 * r, n, pay q) else none
    by_cases c : x.1 = q
    · rw [if_pos c, if_pos c, c]
    · rw [if_neg c, if_neg c]
  rw [h1, List.zipIdx_map_fst, filterMap_pick ins hn q]
  simp only [decide_eq_true_eq]

theorem wred_msgs (c : PCtx β) (B r s d n : Nat) (ins : List Nat) (q : Nat) : ((c.slotReduce B r s d n ins).map wloc).filterMap (wsend q) = [] ∧
    ((c.slotReduce B r s d n ins).map wloc).filterMap (wrecv q) = [] := by
  constructor <;>
  · rw [List.filterMap_eq_nil_iff]
    intro y hy
    obtain ⟨x, hx, rfl⟩ := List.mem_map.1 hy
    obtain ⟨_, op, h2, _⟩ := slotReduce_shape c B r s d n ins x hx
    simp only [wloc, wsend, wrecv, h2]

/-- Messages of a group reduction. -/
theorem wG_msgs (c : PCtx β) (B r s d n : Nat) (ins outs : List Nat) (pay : Nat → List β) (res : List β) (q : Nat) (hi : ins.Nodup) (ho : outs.Nodup)
    (hne : use3 ins = true → outs ≠ []) :
    (c.wG B r s d n ins outs pay res).filterMap (wsend q) =
      (if g0 ins outs c.me q then [(3 * r, n, pay c.me)] else []) ++ (if g2 ins outs c.me q then [(3 * r + 2, n, res)] else []) ∧
    (c.wG B r s d n ins outs pay res).filterMap (wrecv q) =
      (if g0 ins outs q c.me then [(3 * r, n, pay q)] else []) ++ (if g2 ins outs q c.me then [(3 * r + 2, n, res)] else []) := by
  unfold PCtx.wG g0 g2
  by_cases c1 : use3 ins = true
  · have hhead : outs.headD 0 ∈ outs := by
      cases outs with
      | nil => exact absurd rfl (hne c1)
      | cons t os => exact List.mem_cons_self
    simp only [c1, true_and, if_true]
    unfold PCtx.w3
    by_cases c2 : c.me ≠ outs.headD 0
    · rw [if_pos c2]
      constructor
      · rw [List.filterMap_append, if_neg (c := c.me = outs.headD 0 ∧ _) (fun h => c2 h.1), List.append_nil]
        have e2 : (if c.me ∈ outs then [((3 * r + 2, ⟨.comm (.recv (outs.headD 0)) 0 d n, [], res⟩) : Nat × WIt β)] else []).filterMap (wsend q) = [] := by
          split <;> rfl
        rw [e2, List.append_nil]
        by_cases c3 : c.me ∈ ins
        · rw [if_pos c3]
          by_cases c4 : q = outs.headD 0
          · rw [if_pos ⟨c3, fun h => c2 (h.trans c4), c4⟩]
            simp [wsend, c4]
          · rw [if_neg (fun h => c4 h.2.2)]
            simp [wsend, fun h : outs.headD 0 = q => c4 h.symm]
            intro h
            exact absurd h.symm (by simpa [List.headD_eq_head?_getD] using c4)
        · rw [if_neg c3, if_neg (fun h => c3 h.1)]
          rfl
      · rw [List.filterMap_append, if_neg (c := q ∈ ins ∧ q ≠ c.me ∧ c.me = outs.headD 0) (fun h => c2 h.2.2), List.nil_append]
        have e2 : (if c.me ∈ ins then [((3 * r, ⟨.comm (.send (outs.headD 0)) s 0 n, pay c.me, []⟩) : Nat × WIt β)] else []).filterMap (wrecv q) = [] := by
          split <;> rfl
        rw [e2, List.nil_append]
        by_cases c3 : c.me ∈ outs
        · rw [if_pos c3]
          by_cases c4 : q = outs.headD 0
          · rw [if_pos ⟨c4, c3, fun h => c2 (h.symm.trans c4)⟩]
            simp [wrecv, c4]
          · rw [if_neg (fun h => c4 h.1)]
            simp [wrecv]
            intro h
            exact absurd h.symm (by simpa [List.headD_eq_head?_getD] using c4)
        · rw [if_neg c3, if_neg (fun h => c3 h.2.1)]
          rfl
    · rw [if_neg c2]
      have hme : c.me = outs.headD 0 := not_not.1 c2
      constructor
      · rw [List.filterMap_append, List.filterMap_append, wRecvs_send, (wred_msgs c B r s d n ins q).1, wsends_send, filterMap_pick outs ho q,
          if_neg (c := c.me ∈ ins ∧ c.me ≠ q ∧ q = outs.headD 0) (fun h => h.2.1 (hme.trans h.2.2.symm))]
        simp only [List.nil_append, decide_eq_true_eq]
        congr 1
        rw [eq_iff_iff]
        exact ⟨fun h => ⟨hme, h.1, fun e => h.2 e.symm⟩, fun h => ⟨h.2.1, fun e => h.2.2 e.symm⟩⟩
      · rw [List.filterMap_append, List.filterMap_append, wRecvs_recv c B r n ins pay q hi, (wred_msgs c B r s d n ins q).2, wsends_recv,
          if_neg (c := q = outs.headD 0 ∧ _) (fun h => h.2.2 (h.1.trans hme.symm))]
        simp only [List.append_nil]
        congr 1
        rw [eq_iff_iff]
        exact ⟨fun h => ⟨h.1, h.2, hme⟩, fun h => ⟨h.1, h.2.1⟩⟩
  · have c1' : use3 ins = false := by simpa using c1
    simp only [c1', Bool.false_eq_true, if_false, false_and, List.append_nil]
    unfold PCtx.w2
    constructor
    · have e1 : (if c.me ∈ outs then c.wRecvs B r n ins pay ++ (c.slotReduce B r s d n ins).map wloc else []).filterMap (wsend q) = [] := by
        split
        · rw [List.filterMap_append, wRecvs_send, (wred_msgs c B r s d n ins q).1]; rfl
        · rfl
      rw [List.filterMap_append, e1, List.append_nil]
      by_cases c3 : c.me ∈ ins
      · rw [if_pos c3, wsends_send, filterMap_pick outs ho q]
        simp only [decide_eq_true_eq]
        congr 1
        rw [eq_iff_iff]
        exact ⟨fun h => ⟨c3, fun e => h.2 e.symm, h.1⟩, fun h => ⟨h.2.2, fun e => h.2.1 e.symm⟩⟩
      · rw [if_neg c3, if_neg (fun h => c3 h.1)]
        rfl
    · have e1 : (if c.me ∈ ins then (outs.filter (fun t => t ≠ c.me)).map (fun t => ((3 * r, ⟨.comm (.send t) s 0 n, pay c.me, []⟩) : Nat × WIt β)) else []).filterMap (wrecv q) = [] := by
        split
        · exact wsends_recv ..
        · rfl
      rw [List.filterMap_append, e1, List.nil_append]
      by_cases c3 : c.me ∈ outs
      · rw [if_pos c3, List.filterMap_append, wRecvs_recv c B r n ins pay q hi, (wred_msgs c B r s d n ins q).2, List.append_nil]
        congr 1
        rw [eq_iff_iff]
        exact ⟨fun h => ⟨h.1, h.2, c3⟩, fun h => ⟨h.1, h.2.1⟩⟩
      · rw [if_neg c3, if_neg (fun h => c3 h.2.2)]
        rfl

end Laik.Mp
