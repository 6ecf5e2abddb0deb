import Verif.Model.MpiSplit
/-!
# Effect of the split group reductions

Sorted by rounds, the split reductions of a process have the effect of the
combined reductions, and are independent of each other.
-/

namespace Laik.Mp

variable {β ι : Type}

/-- Writes of one action do not touch cells of the other. -/
def MI (e : CEnv) (a b : CBody β) : Prop :=
  (∀ x, wr e a x = true → ¬ rd e b x ∧ wr e b x = false) ∧ (∀ x, wr e b x = true → ¬ rd e a x)

theorem mi_iff (e : CEnv) (inp : CKey → Nat → β) (a b : CBody β) : MemIndep (a.op e inp) (b.op e inp) ↔ MI e a b := by
  unfold MemIndep MI
  simp only [rd_op, wr_op]

theorem MI.symm {e : CEnv} {a b : CBody β} (h : MI e a b) : MI e b a := by
  refine ⟨fun x hx => ⟨h.2 x hx, ?_⟩, fun x hx => (h.1 x hx).1⟩
  rw [Bool.eq_false_iff]
  intro hc
  rw [(h.1 x hc).2] at hx
  cases hx

def PCtx.mw (c : PCtx β) (M : MData β ι) (a : CM) : WIt β := ⟨a.body, c.payK M a.key, c.datK M a.key⟩

/-- Combined communication actions `l` in memory `m`, and a buffer at `B`. -/
structure MOK (c : PCtx β) (M : MData β ι) (B : Nat) (m : Nat → β) (l : List CM) : Prop where
  elem : ElemOK c M.elem
  nodup : (l.map CM.key).Nodup
  indep : l.Pairwise (fun a b => MI c.env (a.body (β := β)) b.body)
  buf : ∀ a ∈ l, ∀ x, B ≤ x → x < B + c.gsizes l → ¬ rd c.env (a.body (β := β)) x ∧ wr c.env (a.body (β := β)) x = false
  cnt : ∀ a ∈ l, a.cnt = (M.ix a.key).length
  pay : ∀ a ∈ l, c.env.isIn a.key = true → readMem m a.src (a.cnt * c.es) = c.payK M a.key
  dat : ∀ a ∈ l, c.env.isOut a.key = true → notGred a.key = true → (M.dat a.key).length = a.cnt * c.es
  outs : ∀ a ∈ l, ∀ i o op, a.key = .gred i o op → use3 (transGroup c.n c.gs i) = true → transGroup c.n c.gs o ≠ []

theorem flatMap_length_const {f : ι → List β} {n : Nat} (I : List ι) (h : ∀ i ∈ I, (f i).length = n) : (I.flatMap f).length = I.length * n := by
  induction I with
  | nil => simp
  | cons i I ih =>
    rw [List.flatMap_cons, List.length_append, h i List.mem_cons_self, ih (fun i hi => h i (List.mem_cons_of_mem _ hi)), List.length_cons, Nat.succ_mul,
      Nat.add_comm]

theorem forall_of_pairwise {α : Type} {R : α → α → Prop} (hs : ∀ a b, R a b → R b a) {l : List α} (hr : ∀ a ∈ l, R a a) (h : l.Pairwise R) :
    ∀ {a b}, a ∈ l → b ∈ l → R a b := by
  induction l with
  | nil => intro a b ha; cases ha
  | cons x l ih =>
    intro a b ha hb
    rw [List.pairwise_cons] at h
    rcases List.mem_cons.1 ha with rfl | ha' <;> rcases List.mem_cons.1 hb with rfl | hb'
    · exact hr _ ha
    · exact h.1 _ hb'
    · exact hs _ _ (h.1 _ ha')
    · exact ih (fun a ha => hr a (List.mem_cons_of_mem _ ha)) h.2 ha' hb'

theorem filter_unique {α : Type} {P : α → Bool} {l : List α} {a : α} (ha : a ∈ l) (hp : P a = true) (hu : ∀ b ∈ l, P b = true → b = a) (hn : l.Nodup) :
    l.filter P = [a] := by
  induction l with
  | nil => cases ha
  | cons x l ih =>
    rw [List.nodup_cons] at hn
    by_cases c1 : P x = true
    · have hx := hu x List.mem_cons_self c1
      subst hx
      rw [List.filter_cons_of_pos c1]
      congr 1
      rw [List.filter_eq_nil_iff]
      intro b hb hh
      exact hn.1 (hu b (List.mem_cons_of_mem _ hb) hh ▸ hb)
    · rw [List.filter_cons_of_neg c1]
      refine ih ?_ (fun b hb => hu b (List.mem_cons_of_mem _ hb)) hn.2
      rcases List.mem_cons.1 ha with rfl | h
      · exact absurd hp c1
      · exact h

theorem readMem_eq_at {m m' : Nat → β} {a n x : Nat} (h : readMem m a n = readMem m' a n) (hx : a ≤ x ∧ x < a + n) : m x = m' x := by
  have h1 : (readMem m a n)[x - a]? = (readMem m' a n)[x - a]? := by rw [h]
  unfold readMem at h1
  rw [List.getElem?_map, List.getElem?_map, List.getElem?_range (by omega), Option.map_some, Option.map_some, Option.some.injEq] at h1
  have e : a + (x - a) = x := by omega
  rwa [e] at h1

variable {c : PCtx β} {M : MData β ι} {B : Nat} {m : Nat → β} {l : List CM}

theorem MOK.datLen (h : MOK c M B m l) {a : CM} (ha : a ∈ l) (ho : c.env.isOut a.key = true) : (c.datK M a.key).length = a.cnt * c.es := by
  cases hg : notGred a.key with
  | true => rw [datK_notGred c M hg]; exact h.dat a ha ho hg
  | false =>
    cases hk : a.key with
    | send => rw [hk] at hg; cases hg
    | recv => rw [hk] at hg; cases hg
    | red => rw [hk] at hg; cases hg
    | gred i o op =>
      rw [h.cnt a ha, hk]
      unfold PCtx.datK
      exact flatMap_length_const _ (fun i _ => gredVal_length h.elem _ _ i)

theorem rd_gred (c : PCtx β) {a : CM} {i o : Int} {op : Nat} (h : a.key = .gred i o op) (x : Nat) :
    rd c.env (a.body (β := β)) x ↔ c.me ∈ transGroup c.n c.gs i ∧ a.src ≤ x ∧ x < a.src + a.cnt * c.es := by
  unfold CM.body rd
  rw [h]
  simp only [CEnv.isIn, PCtx.env, decide_eq_true_eq]

theorem wr_gred (c : PCtx β) {a : CM} {i o : Int} {op : Nat} (h : a.key = .gred i o op) (x : Nat) :
    wr c.env (a.body (β := β)) x = true ↔ c.me ∈ transGroup c.n c.gs o ∧ a.dst ≤ x ∧ x < a.dst + a.cnt * c.es := by
  unfold CM.body wr
  rw [h]
  simp only [CEnv.isOut, PCtx.env, Bool.and_eq_true, decide_eq_true_eq]
  exact and_congr Iff.rfl (@decide_eq_true_iff _ (_))

/-- Cells of key `k`. -/
def PCtx.zone (c : PCtx β) (B : Nat) (l : List CM) (k : CKey) (x : Nat) : Prop :=
  ∃ a ∈ l, a.key = k ∧ (rd c.env (a.body (β := β)) x ∨ wr c.env (a.body (β := β)) x = true ∨ (c.slotB B l k ≤ x ∧ x < c.slotB B l k + c.gsize a))

/-- Cells of the actions of one key. -/
theorem wM_fp (h : MOK c M B m l) (r : Nat) {a : CM} (ha : a ∈ l) : ∀ y ∈ c.wM M r (c.slotB B l a.key) a, ∀ x,
    (rd c.env y.2.body x → rd c.env (a.body (β := β)) x ∨ wr c.env (a.body (β := β)) x = true ∨ (c.slotB B l a.key ≤ x ∧ x < c.slotB B l a.key + c.gsize a)) ∧
    (wr c.env y.2.body x = true → wr c.env (a.body (β := β)) x = true ∨ (c.slotB B l a.key ≤ x ∧ x < c.slotB B l a.key + c.gsize a)) := by
  intro y hy x
  cases hg : notGred a.key with
  | true =>
    rw [wM_notGred c M r _ hg, List.mem_singleton] at hy
    subst hy
    exact ⟨fun h => Or.inl h, fun h => Or.inl h⟩
  | false =>
    cases hk : a.key with
    | send => rw [hk] at hg; cases hg
    | recv => rw [hk] at hg; cases hg
    | red => rw [hk] at hg; cases hg
    | gred i o op =>
      rw [wM_gred c M r _ hk, hk] at hy
      have hi := wG_items c _ r a.src a.dst a.cnt _ _ (h.outs a ha i o op hk) _ _ y hy
      rw [← gsize_gred c hk] at hi
      rw [rd_gred c hk, wr_gred c hk]
      rcases hi.kind with ⟨q, e, _, hm⟩ | ⟨q, t, e, _, hm⟩ | ⟨op', e, _, _, ho, hR, hW⟩ | ⟨q, e, _, ho⟩ | ⟨q, e, _, ho⟩
      · rw [e]
        refine ⟨?_, ?_⟩
        · rintro ⟨_, h1⟩
          exact Or.inl ⟨hm, h1⟩
        · intro h1; simp [wr, CEnv.isOut] at h1
      · rw [e]
        refine ⟨?_, ?_⟩
        · rintro ⟨h1, _⟩; cases h1
        · intro h1
          simp only [wr, CEnv.isOut, Bool.true_and, decide_eq_true_eq] at h1
          have h2 : c.env.elemsize = c.es := rfl
          rw [h2] at h1
          rw [Nat.succ_mul] at hm
          exact Or.inr (by omega)
      · rw [e]
        refine ⟨?_, ?_⟩
        · intro h1
          rcases hR x h1 with h1 | h1 | h1
          · exact Or.inl h1
          · exact Or.inr (Or.inl ⟨ho, h1⟩)
          · exact Or.inr (Or.inr h1)
        · intro h1
          exact Or.inl ⟨ho, hW x h1⟩
      · rw [e]
        refine ⟨?_, ?_⟩
        · rintro ⟨_, h1⟩
          exact Or.inr (Or.inl ⟨ho, h1⟩)
        · intro h1; simp [wr, CEnv.isOut] at h1
      · rw [e]
        refine ⟨?_, ?_⟩
        · rintro ⟨h1, _⟩; cases h1
        · intro h1
          simp only [wr, CEnv.isOut, Bool.true_and, decide_eq_true_eq] at h1
          exact Or.inl ⟨ho, h1⟩

theorem MOK.uniq (h : MOK c M B m l) {a b : CM} (ha : a ∈ l) (hb : b ∈ l) (e : a.key = b.key) : a = b :=
  List.inj_on_of_nodup_map h.nodup ha hb e

theorem MOK.mi (h : MOK c M B m l) {a b : CM} (ha : a ∈ l) (hb : b ∈ l) (e : a.key ≠ b.key) : MI c.env (a.body (β := β)) b.body := by
  refine forall_of_pairwise (R := fun a b : CM => a.key ≠ b.key → MI c.env (a.body (β := β)) b.body) ?_ ?_ ?_ ha hb e
  · intro x y hxy hne
    exact (hxy hne.symm).symm
  · intro x _ hne
    exact absurd rfl hne
  · exact h.indep.imp (fun {a b} hab (_ : a.key ≠ b.key) => hab)

theorem MOK.slotIn (h : MOK c M B m l) {a : CM} (ha : a ∈ l) {x : Nat} (hx : c.slotB B l a.key ≤ x ∧ x < c.slotB B l a.key + c.gsize a) :
    B ≤ x ∧ x < B + c.gsizes l := by
  have := slotB_bound c l B a ha h.nodup
  omega

/-- Writes of one key are not in cells of others. -/
theorem MOK.zones (h : MOK c M B m l) {a : CM} (ha : a ∈ l) {k : CKey} (hk : k ≠ a.key) {x : Nat}
    (hw : wr c.env (a.body (β := β)) x = true ∨ (c.slotB B l a.key ≤ x ∧ x < c.slotB B l a.key + c.gsize a)) : ¬ c.zone B l k x := by
  rintro ⟨b, hb, rfl, hz⟩
  rcases hw with hw | hw
  · have hm := h.mi ha hb (fun e => hk e.symm)
    rcases hz with hz | hz | hz
    · exact (hm.1 x hw).1 hz
    · rw [(hm.1 x hw).2] at hz; cases hz
    · have := h.slotIn hb hz
      have := (h.buf a ha x this.1 this.2).2
      rw [hw] at this; cases this
  · have hB := h.slotIn ha hw
    have hbuf := h.buf b hb x hB.1 hB.2
    rcases hz with hz | hz | hz
    · exact hbuf.1 hz
    · rw [hbuf.2] at hz; cases hz
    · rcases slotB_disj c l B h.nodup a ha b hb (fun e => hk e.symm) with hd | hd <;> omega

def blocks3 (r : Nat) (L : List (CKey × Nat × WIt β)) : List (CKey × Nat × WIt β) :=
  [3 * r, 3 * r + 1, 3 * r + 2].flatMap (fun r' => L.filter (fun x => x.2.1 = r'))

theorem wM_rounds (h : MOK c M B m l) (r : Nat) {a : CM} (ha : a ∈ l) : ∀ y ∈ c.wM M r (c.slotB B l a.key) a,
    y.1 = 3 * r ∨ y.1 = 3 * r + 1 ∨ y.1 = 3 * r + 2 := by
  intro y hy
  cases hg : notGred a.key with
  | true =>
    rw [wM_notGred c M r _ hg, List.mem_singleton] at hy
    subst hy
    exact Or.inr (Or.inl rfl)
  | false =>
    cases hk : a.key with
    | send => rw [hk] at hg; cases hg
    | recv => rw [hk] at hg; cases hg
    | red => rw [hk] at hg; cases hg
    | gred i o op =>
      rw [wM_gred c M r _ hk, hk] at hy
      exact (wG_items c _ r a.src a.dst a.cnt _ _ (h.outs a ha i o op hk) _ _ y hy).round

/-- Actions of one key, sorted by rounds. -/
theorem blocks_part (h : MOK c M B m l) (r : Nat) (k : CKey) :
    part k ((blocks3 r (c.wMs M r B l)).map (fun x => (x.1, x.2.2))) = bodies (((c.wMs M r B l).filter (fun x => x.1 = k)).map (·.2)) := by
  have h1 : (blocks3 r (c.wMs M r B l)).filter (fun x => x.1 = k) = blocks3 r ((c.wMs M r B l).filter (fun x => x.1 = k)) := by
    unfold blocks3
    rw [List.filter_flatMap]
    apply List.flatMap_congr
    intro r' _
    rw [List.filter_filter, List.filter_filter]
    apply List.filter_congr
    intro x _
    exact Bool.and_comm _ _
  have h2 : blocks3 r ((c.wMs M r B l).filter (fun x => x.1 = k)) = (c.wMs M r B l).filter (fun x => x.1 = k) := by
    symm
    refine rounds_blocks (fun x : CKey × Nat × WIt β => x.2.1) _ _ (by simp) ?_ ?_
    · by_cases hk : k ∈ l.map CM.key
      · obtain ⟨a, ha, rfl⟩ := List.mem_map.1 hk
        rw [(wMs_part c M r l B h.nodup).1 a ha, List.pairwise_map]
        exact wM_sorted c M r _ a
      · rw [(wMs_part c M r l B h.nodup).2 k hk]
        exact List.Pairwise.nil
    · intro x hx
      obtain ⟨a, ha, _, hy⟩ := wMs_mem c M r h.nodup (List.mem_filter.1 hx).1
      have := wM_rounds h r ha _ hy
      simp only [List.mem_cons, List.not_mem_nil, or_false]
      exact this
  unfold part bodies
  rw [List.filter_map]
  have e : ((blocks3 r (c.wMs M r B l)).filter ((fun x : CKey × WIt β => decide (x.1 = k)) ∘ fun x => (x.1, x.2.2))) = (blocks3 r (c.wMs M r B l)).filter (fun x => x.1 = k) := rfl
  rw [e, h1, h2, List.map_map, List.map_map]
  rfl

/-- Effect of the actions of one key. -/
theorem wM_walk (h : MOK c M B m l) (r : Nat) {a : CM} (ha : a ∈ l) :
    MWalk c.env m (bodies (c.wM M r (c.slotB B l a.key) a)) ∧
    (∀ x, ¬ (B ≤ x ∧ x < B + c.gsizes l) → mrun c.env m (bodies (c.wM M r (c.slotB B l a.key) a)) x = mrun c.env m [c.mw M a] x) := by
  have hmw : wexp c.env m (c.mw M a) := ⟨h.pay a ha, h.datLen ha⟩
  cases hg : notGred a.key with
  | true =>
    rw [wM_notGred c M r _ hg]
    exact ⟨⟨hmw, trivial⟩, fun x _ => rfl⟩
  | false =>
    cases hk : a.key with
    | send => rw [hk] at hg; cases hg
    | recv => rw [hk] at hg; cases hg
    | red => rw [hk] at hg; cases hg
    | gred i o op =>
      have hcnt := h.cnt a ha
      have hin : c.me ∈ transGroup c.n c.gs i → c.env.isIn a.key = true := by intro hh; rw [hk]; simpa [CEnv.isIn, PCtx.env] using hh
      have hdk : c.datK M a.key = (M.ix a.key).flatMap (fun x => gredVal c.red c.neutral (calcBy c.me (transGroup c.n c.gs i) (transGroup c.n c.gs o))
          (transGroup c.n c.gs i) (fun q => M.elem q x)) := by rw [hk]; rfl
      have hslot : ∀ x, c.slotB B l a.key ≤ x → x < c.slotB B l a.key + c.gsz (M.ix a.key).length (transGroup c.n c.gs i) (transGroup c.n c.gs o) →
          B ≤ x ∧ x < B + c.gsizes l := by
        intro x h1 h2
        refine h.slotIn ha ⟨h1, ?_⟩
        rw [gsize_gred c hk, hcnt]
        exact h2
      obtain ⟨w1, w2, w3⟩ := wG_walk c (M.ix a.key) M.elem h.elem (c.slotB B l a.key) r a.src a.dst (transGroup c.n c.gs i) (transGroup c.n c.gs o) m
        (h.outs a ha i o op hk)
        (fun hh => read_holds _ _ (fun i _ => h.elem.len _ _) (by rw [← hcnt]; exact h.pay a ha (hin hh)))
        (by
          intro hh x h1 h2 h3
          have hB := hslot x h1 h2
          apply (h.buf a ha x hB.1 hB.2).1
          rw [rd_gred c hk, hcnt]
          exact ⟨hh, h3⟩)
        (by
          intro hh x h1 h2 h3
          have hB := hslot x h1 h2
          have h4 := (h.buf a ha x hB.1 hB.2).2
          have h5 := (wr_gred c hk x).2 ⟨hh, by rw [hcnt]; exact h3⟩
          rw [h4] at h5; cases h5)
      have ew : c.wM M r (c.slotB B l (.gred i o op)) a = c.wG (c.slotB B l a.key) r a.src a.dst (M.ix a.key).length (transGroup c.n c.gs i) (transGroup c.n c.gs o)
          (fun q => (M.ix a.key).flatMap (M.elem q)) ((M.ix a.key).flatMap (fun x => gredVal c.red c.neutral (calcBy c.me (transGroup c.n c.gs i) (transGroup c.n c.gs o))
          (transGroup c.n c.gs i) (fun q => M.elem q x))) := by
        rw [wM_gred c M r _ hk, hdk, hcnt, hk]
      rw [ew]
      refine ⟨w1, ?_⟩
      intro x hx
      have hx' : ¬ (c.slotB B l a.key ≤ x ∧ x < c.slotB B l a.key + c.gsz (M.ix a.key).length (transGroup c.n c.gs i) (transGroup c.n c.gs o)) :=
        fun hh => hx (hslot x hh.1 hh.2)
      by_cases c1 : c.me ∈ transGroup c.n c.gs o ∧ a.dst ≤ x ∧ x < a.dst + (M.ix a.key).length * c.es
      · have r1 := holds_read _ _ (w2 c1.1)
        have e2 : mrun c.env m [c.mw M a] = writeMem m a.dst (c.datK M a.key) := by
          show mstep c.env m (c.mw M a) = _
          unfold mstep PCtx.mw CM.body
          simp only
          rw [if_pos]
          rw [hk]
          simpa [CEnv.isOut, PCtx.env] using c1.1
        have r2 : readMem (mrun c.env m [c.mw M a]) a.dst ((M.ix a.key).length * c.es) = c.datK M a.key := by
          rw [e2, hdk]
          exact holds_read _ _ (writeMem_holds (fun i _ => gredVal_length h.elem _ _ i))
        exact readMem_eq_at (r1.trans (hdk.symm.trans r2.symm)) c1.2
      · rw [w3 x c1 hx']
        symm
        refine mrun_frame c.env [c.mw M a] m ⟨hmw, trivial⟩ ?_
        intro w hw
        rw [List.mem_singleton] at hw
        subst hw
        rw [Bool.eq_false_iff]
        intro hh
        apply c1
        have := (wr_gred c hk x).1 hh
        rwa [hcnt] at this

theorem MOK.mwWalk (h : MOK c M B m l) (k : CKey) : MWalk c.env m (part k (l.map (fun a => (a.key, c.mw M a)))) ∧
    ((∃ a ∈ l, a.key = k ∧ part k (l.map (fun a => (a.key, c.mw M a))) = [c.mw M a]) ∨ (k ∉ l.map CM.key ∧ part k (l.map (fun a => (a.key, c.mw M a))) = [])) := by
  have hp : part k (l.map (fun a => (a.key, c.mw M a))) = (l.filter (fun a => a.key = k)).map (c.mw M) := by
    unfold part
    rw [List.filter_map, List.map_map]
    rfl
  rw [hp]
  by_cases hk : k ∈ l.map CM.key
  · obtain ⟨a, ha, rfl⟩ := List.mem_map.1 hk
    have e : l.filter (fun b => b.key = a.key) = [a] := by
      apply filter_unique ha
      · simp
      · intro b hb hh
        rw [decide_eq_true_eq] at hh
        exact h.uniq hb ha hh
      · exact (List.Nodup.of_map _ h.nodup)
    rw [e]
    exact ⟨⟨⟨h.pay a ha, h.datLen ha⟩, trivial⟩, Or.inl ⟨a, ha, rfl, rfl⟩⟩
  · have e : l.filter (fun b => b.key = k) = [] := by
      rw [List.filter_eq_nil_iff]
      intro b hb hh
      rw [decide_eq_true_eq] at hh
      exact hk (List.mem_map.2 ⟨b, hb, hh⟩)
    rw [e]
    exact ⟨trivial, Or.inr ⟨hk, rfl⟩⟩

/-- Split and sorted actions have the effect of the combined ones. -/
theorem split_walk (h : MOK c M B m l) (r : Nat) :
    MWalk c.env m ((blocks3 r (c.wMs M r B l)).map (·.2.2)) ∧ MWalk c.env m (l.map (c.mw M)) ∧
    (∀ x, ¬ (B ≤ x ∧ x < B + c.gsizes l) → mrun c.env m ((blocks3 r (c.wMs M r B l)).map (·.2.2)) x = mrun c.env m (l.map (c.mw M)) x) := by
  have hmem : ∀ y ∈ (blocks3 r (c.wMs M r B l)).map (fun x => (x.1, x.2.2)), ∃ a ∈ l, y.1 = a.key ∧ ∃ rr, (rr, y.2) ∈ c.wM M r (c.slotB B l a.key) a := by
    intro y hy
    obtain ⟨z, hz, rfl⟩ := List.mem_map.1 hy
    unfold blocks3 at hz
    obtain ⟨r', _, hz⟩ := List.mem_flatMap.1 hz
    obtain ⟨a, ha, e, hw⟩ := wMs_mem c M r h.nodup (List.mem_filter.1 hz).1
    exact ⟨a, ha, e, z.2.1, hw⟩
  obtain ⟨p1, p2⟩ := walk_parts c.env (c.zone B l) ((blocks3 r (c.wMs M r B l)).map (fun x => (x.1, x.2.2)))
    (by
      intro y hy x hx
      obtain ⟨a, ha, e, rr, hw⟩ := hmem y hy
      obtain ⟨f1, f2⟩ := wM_fp h r ha _ hw x
      refine ⟨a, ha, e.symm, ?_⟩
      rw [e]
      rcases hx with hx | hx
      · exact f1 hx
      · exact Or.inr (f2 hx))
    (by
      intro y hy t ht x hx
      obtain ⟨a, ha, e, rr, hw⟩ := hmem y hy
      obtain ⟨f1, f2⟩ := wM_fp h r ha _ hw x
      exact h.zones ha (fun hh => ht (hh.trans e.symm)) (f2 hx))
    m (fun _ => m) (fun _ _ _ => rfl)
    (by
      intro t
      rw [blocks_part h r t]
      by_cases hk : t ∈ l.map CM.key
      · obtain ⟨a, ha, rfl⟩ := List.mem_map.1 hk
        rw [(wMs_part c M r l B h.nodup).1 a ha, List.map_map]
        have : (c.wM M r (c.slotB B l a.key) a).map ((fun x : CKey × Nat × WIt β => x.2) ∘ fun x => (a.key, x)) = c.wM M r (c.slotB B l a.key) a := List.map_id _
        rw [this]
        exact (wM_walk h r ha).1
      · rw [(wMs_part c M r l B h.nodup).2 t hk]
        trivial)
  obtain ⟨q1, q2⟩ := walk_parts c.env (c.zone B l) (l.map (fun a => (a.key, c.mw M a)))
    (by
      intro y hy x hx
      obtain ⟨a, ha, rfl⟩ := List.mem_map.1 hy
      refine ⟨a, ha, rfl, ?_⟩
      rcases hx with hx | hx
      · exact Or.inl hx
      · exact Or.inr (Or.inl hx))
    (by
      intro y hy t ht x hx
      obtain ⟨a, ha, rfl⟩ := List.mem_map.1 hy
      exact h.zones ha ht (Or.inl hx))
    m (fun _ => m) (fun _ _ _ => rfl) (fun t => (h.mwWalk t).1)
  rw [List.map_map] at p1 p2 q1 q2
  have e1 : ((blocks3 r (c.wMs M r B l)).map ((fun x : CKey × WIt β => x.2) ∘ fun x => (x.1, x.2.2))) = (blocks3 r (c.wMs M r B l)).map (·.2.2) := rfl
  have e2 : l.map ((fun x : CKey × WIt β => x.2) ∘ fun a => (a.key, c.mw M a)) = l.map (c.mw M) := rfl
  rw [e1] at p1 p2
  rw [e2] at q1 q2
  refine ⟨p1, q1, ?_⟩
  intro x hx
  by_cases hz : ∃ k, c.zone B l k x
  · obtain ⟨k, hz⟩ := hz
    rw [p2 k x hz, q2 k x hz, blocks_part h r k]
    rcases (h.mwWalk k).2 with ⟨a, ha, rfl, e⟩ | ⟨hk, e⟩
    · rw [e, (wMs_part c M r l B h.nodup).1 a ha, List.map_map]
      have : (c.wM M r (c.slotB B l a.key) a).map ((fun x : CKey × Nat × WIt β => x.2) ∘ fun x => (a.key, x)) = c.wM M r (c.slotB B l a.key) a := List.map_id _
      rw [this]
      exact (wM_walk h r ha).2 x hx
    · rw [e, (wMs_part c M r l B h.nodup).2 k hk]
      rfl
  · rw [mrun_frame c.env _ m p1, mrun_frame c.env _ m q1]
    · intro w hw
      obtain ⟨a, ha, rfl⟩ := List.mem_map.1 hw
      rw [Bool.eq_false_iff]
      intro hh
      exact hz ⟨a.key, a, ha, rfl, Or.inr (Or.inl hh)⟩
    · intro w hw
      obtain ⟨z, hz', rfl⟩ := List.mem_map.1 hw
      obtain ⟨a, ha, e, rr, hw⟩ := hmem (z.1, z.2.2) (List.mem_map.2 ⟨z, hz', rfl⟩)
      rw [Bool.eq_false_iff]
      intro hh
      exact hz ⟨a.key, a, ha, rfl, Or.inr ((wM_fp h r ha _ hw x).2 hh)⟩

end Laik.Mp
