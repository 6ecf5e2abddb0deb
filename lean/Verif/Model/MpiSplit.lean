import Verif.Model.MpiGroup
/-!
# Splitting of all group reductions of a process

The combined communication actions of one process and the actions they are
replaced with (`laik_aseq_splitReduce`), sorted by rounds.
-/

namespace Laik.Mp

variable {β ι : Type}

/-- Combined communication action. -/
structure CM where
  key : CKey
  src : Nat
  dst : Nat
  cnt : Nat

def CM.body (a : CM) : CBody β := .comm a.key a.src a.dst a.cnt
def CM.act (r : Nat) (a : CM) : CAct β := ⟨r, a.body⟩

/-- Indexes of each key, elements, and contents got with keys other than of group
reductions. -/
structure MData (β ι : Type) where
  ix : CKey → List ι
  elem : Nat → ι → List β
  dat : CKey → List β

def PCtx.payK (c : PCtx β) (M : MData β ι) (k : CKey) : List β := (M.ix k).flatMap (M.elem c.me)

def PCtx.gval (c : PCtx β) (M : MData β ι) (ins outs : List Nat) (i : ι) : List β :=
  gredVal c.red c.neutral (calcBy c.me ins outs) ins (fun q => M.elem q i)

def PCtx.datK (c : PCtx β) (M : MData β ι) (k : CKey) : List β :=
  match k with
  | .gred i o _ => (M.ix k).flatMap (c.gval M (transGroup c.n c.gs i) (transGroup c.n c.gs o))
  | _ => M.dat k

/-- Size of the buffer for an action. -/
def PCtx.gsize (c : PCtx β) (a : CM) : Nat :=
  match a.key with
  | .gred i o _ =>
    c.gsz a.cnt (transGroup c.n c.gs i) (transGroup c.n c.gs o)
  | _ => 0

/-- Actions for `a` with contents, in round `r`. -/
def PCtx.wM (c : PCtx β) (M : MData β ι) (r B : Nat) (a : CM) : List (Nat × WIt β) :=
  match a.key with
  | .gred i o _ => c.wG B r a.src a.dst a.cnt (transGroup c.n c.gs i) (transGroup c.n c.gs o) (fun q => (M.ix a.key).flatMap (M.elem q)) (c.datK M a.key)
  | k => [(3 * r + 1, ⟨a.body, c.payK M k, c.datK M k⟩)]

def PCtx.wMs (c : PCtx β) (M : MData β ι) (r : Nat) : Nat → List CM → List (CKey × Nat × WIt β)
  | _, [] => []
  | B, a :: l => (c.wM M r B a).map (fun x => (a.key, x)) ++ c.wMs M r (B + c.gsize a) l

def PCtx.gsizes (c : PCtx β) (l : List CM) : Nat := (l.map c.gsize).sum

/-- Start of the buffer of key `k`. -/
def PCtx.slotB (c : PCtx β) : Nat → List CM → CKey → Nat
  | B, [], _ => B
  | B, a :: l, k => if a.key = k then B else c.slotB (B + c.gsize a) l k

def notGred : CKey → Bool
  | .gred _ _ _ => false
  | _ => true

theorem wM_notGred (c : PCtx β) (M : MData β ι) (r B : Nat) {a : CM} (h : notGred a.key = true) :
    c.wM M r B a = [(3 * r + 1, ⟨a.body, c.payK M a.key, c.datK M a.key⟩)] := by
  unfold PCtx.wM
  cases hk : a.key with
  | gred i o op => rw [hk] at h; cases h
  | send => rfl
  | recv => rfl
  | red => rfl

theorem gsize_notGred (c : PCtx β) {a : CM} (h : notGred a.key = true) : c.gsize a = 0 := by
  unfold PCtx.gsize
  cases hk : a.key with
  | gred i o op => rw [hk] at h; cases h
  | send => rfl
  | recv => rfl
  | red => rfl

theorem datK_notGred (c : PCtx β) (M : MData β ι) {k : CKey} (h : notGred k = true) : c.datK M k = M.dat k := by
  unfold PCtx.datK
  cases k with
  | gred i o op => cases h
  | send => rfl
  | recv => rfl
  | red => rfl

theorem wM_gred (c : PCtx β) (M : MData β ι) (r B : Nat) {a : CM} {i o : Int} {op : Nat} (h : a.key = .gred i o op) :
    c.wM M r B a = c.wG B r a.src a.dst a.cnt (transGroup c.n c.gs i) (transGroup c.n c.gs o) (fun q => (M.ix a.key).flatMap (M.elem q)) (c.datK M a.key) := by
  unfold PCtx.wM
  simp only [h]

theorem gsize_gred (c : PCtx β) {a : CM} {i o : Int} {op : Nat} (h : a.key = .gred i o op) :
    c.gsize a = c.gsz a.cnt (transGroup c.n c.gs i) (transGroup c.n c.gs o) := by
  unfold PCtx.gsize
  simp only [h]

theorem red3_size {c : PCtx β} {B r s d n : Nat} {ins outs : List Nat} {x : List (CAct β) × Nat} (h : c.red3 B r s d n ins outs = some x) :
    x.2 = (if c.me = outs.headD 0 then c.slotSize n ins else 0) ∧ outs ≠ [] := by
  unfold PCtx.red3 at h
  cases outs with
  | nil => cases h
  | cons t os =>
    simp only at h
    rw [List.headD_cons]
    refine ⟨?_, by simp⟩
    by_cases c1 : c.me ≠ t
    · rw [if_pos c1] at h
      cases h
      rw [if_neg c1]
    · rw [if_neg c1] at h
      split at h
      · cases h
        rw [if_pos (not_not.1 c1)]
      · cases h

theorem red2_size {c : PCtx β} {B r s d n : Nat} {ins outs : List Nat} {x : List (CAct β) × Nat} (h : c.red2 B r s d n ins outs = some x) :
    x.2 = if c.me ∈ outs then c.slotSize n ins else 0 := by
  unfold PCtx.red2 at h
  simp only at h
  by_cases c1 : c.me ∈ outs
  · rw [if_pos c1] at h ⊢
    split at h
    · cases h; rfl
    · cases h
  · rw [if_neg c1] at h ⊢
    cases h; rfl

/-- The contents do not change the actions. -/
theorem wMs_unw (c : PCtx β) (M : MData β ι) (r : Nat) (l : List CM) : ∀ B v, c.splitGo B (l.map (CM.act r)) = some v →
    (c.wMs M r B l).map (fun x => unw x.2) = v := by
  induction l with
  | nil => intro B v h; cases h; rfl
  | cons a l ih =>
    intro B v h
    rw [List.map_cons] at h
    rw [PCtx.wMs, List.map_append, List.map_map]
    have he : ∀ l : List (Nat × WIt β), l.map ((fun x : CKey × Nat × WIt β => unw x.2) ∘ fun x => (a.key, x)) = l.map unw := fun l => rfl
    rw [he]
    cases hg : notGred a.key with
    | true =>
      have hg' : CAct.isGred (CM.act (β := β) r a) = false := by
        unfold CAct.isGred CM.act CM.body
        cases hk : a.key with
        | gred i o op => rw [hk] at hg; cases hg
        | send => rfl
        | recv => rfl
        | red => rfl
      rw [splitGo_other c B _ hg'] at h
      cases hv : c.splitGo B (l.map (CM.act r)) with
      | none => rw [hv] at h; cases h
      | some w =>
        rw [hv] at h
        cases h
        rw [wM_notGred c M r B hg, gsize_notGred c hg, show B + 0 = B from rfl, ih B w hv]
        rfl
    | false =>
      cases hk : a.key with
      | send => rw [hk] at hg; cases hg
      | recv => rw [hk] at hg; cases hg
      | red => rw [hk] at hg; cases hg
      | gred i o op =>
        have hb : (CM.act (β := β) r a).body = .comm (.gred i o op) a.src a.dst a.cnt := by
          unfold CM.act CM.body; rw [hk]
        rw [splitGo_gred c B _ hb] at h
        obtain ⟨x, hx, h⟩ := Option.bind_eq_some_iff.1 h
        cases hv : c.splitGo (B + x.2) (l.map (CM.act r)) with
        | none => rw [hv] at h; cases h
        | some w =>
          rw [hv] at h
          cases h
          rw [wM_gred c M r B hk]
          unfold PCtx.wG
          rw [gsize_gred c hk]
          unfold PCtx.gsz
          have hr : (CM.act (β := β) r a).round = r := rfl
          rw [hr] at hx
          by_cases c1 : (transGroup c.n c.gs i).length * (transGroup c.n c.gs i).length > 4 * ((transGroup c.n c.gs i).length + (transGroup c.n c.gs i).length)
          · have c1' : use3 (transGroup c.n c.gs i) = true := by unfold use3; simpa using c1
            rw [if_pos c1] at hx
            rw [if_pos c1', if_pos c1', w3_unw hx, ← (red3_size hx).1, ih _ w hv]
          · have c1' : ¬ use3 (transGroup c.n c.gs i) = true := by unfold use3; simpa using c1
            rw [if_neg c1] at hx
            rw [if_neg c1', if_neg c1', w2_unw hx, ← red2_size hx, ih _ w hv]

/-- Actions of one key. -/
theorem wMs_part (c : PCtx β) (M : MData β ι) (r : Nat) (l : List CM) : ∀ B, (l.map CM.key).Nodup →
    (∀ a ∈ l, (c.wMs M r B l).filter (fun x => x.1 = a.key) = (c.wM M r (c.slotB B l a.key) a).map (fun x => (a.key, x))) ∧
    (∀ k, k ∉ l.map CM.key → (c.wMs M r B l).filter (fun x => x.1 = k) = []) := by
  induction l with
  | nil => intro B _; exact ⟨by simp, fun k _ => rfl⟩
  | cons b l ih =>
    intro B hnd
    rw [List.map_cons, List.nodup_cons] at hnd
    obtain ⟨i1, i2⟩ := ih (B + c.gsize b) hnd.2
    have same : ((c.wM M r B b).map (fun x => (b.key, x))).filter (fun x => x.1 = b.key) = (c.wM M r B b).map (fun x => (b.key, x)) := by
      rw [List.filter_eq_self]
      intro x hx
      obtain ⟨y, _, rfl⟩ := List.mem_map.1 hx
      simp
    have diff : ∀ k, k ≠ b.key → ((c.wM M r B b).map (fun x => (b.key, x))).filter (fun x => x.1 = k) = [] := by
      intro k hk
      rw [List.filter_eq_nil_iff]
      intro x hx
      obtain ⟨y, _, rfl⟩ := List.mem_map.1 hx
      simpa using fun h => hk h.symm
    constructor
    · intro a ha
      rw [PCtx.wMs, List.filter_append, PCtx.slotB]
      by_cases c1 : b.key = a.key
      · have : a = b := by
          rcases List.mem_cons.1 ha with h | h
          · exact h
          · exact absurd (List.mem_map.2 ⟨a, h, c1.symm⟩) hnd.1
        subst this
        rw [if_pos rfl, same, i2 _ hnd.1, List.append_nil]
      · have ha' : a ∈ l := by
          rcases List.mem_cons.1 ha with h | h
          · exact absurd (by rw [h]) c1
          · exact h
        rw [if_neg c1, diff _ (fun h => c1 h.symm), i1 a ha', List.nil_append]
    · intro k hk
      rw [List.map_cons, List.mem_cons, not_or] at hk
      rw [PCtx.wMs, List.filter_append, diff k hk.1, i2 k hk.2]
      rfl

theorem wMs_mem (c : PCtx β) (M : MData β ι) (r : Nat) {l : List CM} {B : Nat} (hnd : (l.map CM.key).Nodup) {x : CKey × Nat × WIt β}
    (hx : x ∈ c.wMs M r B l) : ∃ a ∈ l, x.1 = a.key ∧ x.2 ∈ c.wM M r (c.slotB B l a.key) a := by
  by_cases hk : x.1 ∈ l.map CM.key
  · obtain ⟨a, ha, e⟩ := List.mem_map.1 hk
    refine ⟨a, ha, e.symm, ?_⟩
    have h1 := (wMs_part c M r l B hnd).1 a ha
    have h2 : x ∈ (c.wMs M r B l).filter (fun x => x.1 = a.key) := List.mem_filter.2 ⟨hx, by simp [e]⟩
    rw [h1] at h2
    obtain ⟨y, hy, rfl⟩ := List.mem_map.1 h2
    exact hy
  · have h1 := (wMs_part c M r l B hnd).2 _ hk
    have h2 : x ∈ (c.wMs M r B l).filter (fun y => y.1 = x.1) := List.mem_filter.2 ⟨hx, by simp⟩
    rw [h1] at h2
    cases h2

theorem slotB_bound (c : PCtx β) (l : List CM) : ∀ B, ∀ a ∈ l, (l.map CM.key).Nodup → B ≤ c.slotB B l a.key ∧ c.slotB B l a.key + c.gsize a ≤ B + c.gsizes l := by
  induction l with
  | nil => intro B a ha; cases ha
  | cons b l ih =>
    intro B a ha hnd
    rw [List.map_cons, List.nodup_cons] at hnd
    unfold PCtx.gsizes at ih ⊢
    rw [PCtx.slotB, List.map_cons, List.sum_cons]
    by_cases c1 : b.key = a.key
    · have : a = b := by
        rcases List.mem_cons.1 ha with h | h
        · exact h
        · exact absurd (List.mem_map.2 ⟨a, h, c1.symm⟩) hnd.1
      subst this
      rw [if_pos rfl]
      omega
    · rw [if_neg c1]
      rcases List.mem_cons.1 ha with h | h
      · exact absurd (by rw [h]) c1
      · have := ih (B + c.gsize b) a h hnd.2
        omega

theorem slotB_disj (c : PCtx β) (l : List CM) : ∀ B, (l.map CM.key).Nodup → ∀ a ∈ l, ∀ b ∈ l, a.key ≠ b.key →
    c.slotB B l a.key + c.gsize a ≤ c.slotB B l b.key ∨ c.slotB B l b.key + c.gsize b ≤ c.slotB B l a.key := by
  induction l with
  | nil => intro B _ a ha; cases ha
  | cons e l ih =>
    intro B hnd a ha b hb hab
    rw [List.map_cons, List.nodup_cons] at hnd
    rw [PCtx.slotB, PCtx.slotB]
    have uniq : ∀ x ∈ e :: l, e.key = x.key → x = e := by
      intro x hx h
      rcases List.mem_cons.1 hx with h1 | h1
      · exact h1
      · exact absurd (List.mem_map.2 ⟨x, h1, h.symm⟩) hnd.1
    by_cases c1 : e.key = a.key
    · have ea := uniq a ha c1
      have c2 : e.key ≠ b.key := fun h => hab (c1.symm.trans h)
      rw [if_pos c1, if_neg c2]
      left
      have hb' : b ∈ l := by
        rcases List.mem_cons.1 hb with h1 | h1
        · exact absurd (by rw [h1]) c2
        · exact h1
      have := (slotB_bound c l (B + c.gsize e) b hb' hnd.2).1
      rw [ea]
      exact this
    · have ha' : a ∈ l := by
        rcases List.mem_cons.1 ha with h1 | h1
        · exact absurd (by rw [h1]) c1
        · exact h1
      rw [if_neg c1]
      by_cases c2 : e.key = b.key
      · rw [if_pos c2]
        right
        have := (slotB_bound c l (B + c.gsize e) a ha' hnd.2).1
        rw [uniq b hb c2]
        exact this
      · have hb' : b ∈ l := by
          rcases List.mem_cons.1 hb with h1 | h1
          · exact absurd (by rw [h1]) c2
          · exact h1
        rw [if_neg c2]
        exact ih _ hnd.2 a ha' b hb' hab

/-! ### Rounds and footprints of the actions of one key -/

theorem slotReduce_shape (c : PCtx β) (B r s d n : Nat) (ins : List Nat) : ∀ y ∈ c.slotReduce B r s d n ins, y.round = 3 * r + 1 ∧
    ∃ op, y.body = .other op ∧ op.key = none ∧
      (∀ x, op.R x → (c.me ∈ ins ∧ s ≤ x ∧ x < s + n * c.es) ∨ (d ≤ x ∧ x < d + n * c.es) ∨ (B ≤ x ∧ x < B + c.slotSize n ins)) ∧
      (∀ x, op.W x = true → d ≤ x ∧ x < d + n * c.es) := by
  have hslot : ∀ t < (ins.filter (fun q => q ≠ c.me)).length, ∀ x, B + t * (n * c.es) ≤ x → x < B + t * (n * c.es) + n * c.es → B ≤ x ∧ x < B + c.slotSize n ins := by
    intro t ht x h1 h2
    unfold PCtx.slotSize
    have := Nat.mul_le_mul_right (n * c.es) ht
    rw [Nat.succ_mul] at this
    omega
  have hred : ∀ t < (ins.filter (fun q => q ≠ c.me)).length, ∀ y : CAct β, y = ⟨3 * r + 1, .other (c.redLocal d (B + t * (n * c.es)) n)⟩ →
      y.round = 3 * r + 1 ∧ ∃ op, y.body = .other op ∧ op.key = none ∧
      (∀ x, op.R x → (c.me ∈ ins ∧ s ≤ x ∧ x < s + n * c.es) ∨ (d ≤ x ∧ x < d + n * c.es) ∨ (B ≤ x ∧ x < B + c.slotSize n ins)) ∧
      (∀ x, op.W x = true → d ≤ x ∧ x < d + n * c.es) := by
    rintro t ht y rfl
    refine ⟨rfl, _, rfl, rfl, ?_, ?_⟩
    · rintro x (h | h)
      · exact Or.inr (Or.inl h)
      · exact Or.inr (Or.inr (hslot t ht x h.1 h.2))
    · intro x hx
      simpa [PCtx.redLocal] using hx
  intro y hy
  unfold PCtx.slotReduce at hy
  simp only at hy
  by_cases c1 : ins = []
  · rw [if_pos c1, List.mem_singleton] at hy
    subst hy
    refine ⟨rfl, _, rfl, rfl, fun x hx => Or.inr (Or.inl hx), ?_⟩
    intro x hx
    simpa [PCtx.initLocal] using hx
  · rw [if_neg c1] at hy
    by_cases c2 : c.me ∈ ins
    · rw [if_pos c2] at hy
      rcases List.mem_append.1 hy with hy | hy
      · by_cases c3 : s = d
        · rw [if_pos c3] at hy; cases hy
        · rw [if_neg c3, List.mem_singleton] at hy
          subst hy
          refine ⟨rfl, _, rfl, rfl, fun x hx => Or.inl ⟨c2, hx⟩, ?_⟩
          intro x hx
          simpa [copyOp] using hx
      · obtain ⟨t, ht, rfl⟩ := List.mem_map.1 hy
        exact hred t (List.mem_range.1 ht) _ rfl
    · rw [if_neg c2] at hy
      have hf : ins.filter (fun q => q ≠ c.me) = ins := by
        rw [List.filter_eq_self]
        intro q hq
        rw [decide_eq_true_eq]
        rintro rfl
        exact c2 hq
      have hpos : 0 < ins.length := List.length_pos_iff.2 c1
      rcases List.mem_cons.1 hy with rfl | hy
      · refine ⟨rfl, _, rfl, rfl, fun x hx => Or.inr (Or.inr (hslot 0 (by rw [hf]; exact hpos) x hx.1 hx.2)), ?_⟩
        intro x hx
        simpa [copyOp] using hx
      · obtain ⟨t, ht, rfl⟩ := List.mem_map.1 hy
        rw [List.mem_range] at ht
        exact hred (t + 1) (by omega) _ rfl

/-- Items of a reduction: round, cells, and kind. -/
structure GItem (c : PCtx β) (B r s d n : Nat) (ins outs : List Nat) (sz : Nat) (y : Nat × WIt β) : Prop where
  round : y.1 = 3 * r ∨ y.1 = 3 * r + 1 ∨ y.1 = 3 * r + 2
  kind : (∃ q, y.2.body = .comm (.send q) s 0 n ∧ y.1 = 3 * r ∧ c.me ∈ ins) ∨
    (∃ q t, y.2.body = .comm (.recv q) 0 (B + t * (n * c.es)) n ∧ y.1 = 3 * r ∧ (t + 1) * (n * c.es) ≤ sz) ∨
    (∃ op, y.2.body = .other op ∧ y.1 = 3 * r + 1 ∧ op.key = none ∧ c.me ∈ outs ∧
      (∀ x, op.R x → (c.me ∈ ins ∧ s ≤ x ∧ x < s + n * c.es) ∨ (d ≤ x ∧ x < d + n * c.es) ∨ (B ≤ x ∧ x < B + sz)) ∧
      (∀ x, op.W x = true → d ≤ x ∧ x < d + n * c.es)) ∨
    (∃ q, y.2.body = .comm (.send q) d 0 n ∧ y.1 = 3 * r + 2 ∧ c.me ∈ outs) ∨
    (∃ q, y.2.body = .comm (.recv q) 0 d n ∧ y.1 = 3 * r + 2 ∧ c.me ∈ outs)

theorem wG_items (c : PCtx β) (B r s d n : Nat) (ins outs : List Nat) (hout : use3 ins = true → outs ≠ []) (pay : Nat → List β) (res : List β) :
    ∀ y ∈ c.wG B r s d n ins outs pay res, GItem c B r s d n ins outs (c.gsz n ins outs) y := by
  have hrecv : ∀ y ∈ c.wRecvs B r n ins pay, GItem c B r s d n ins outs (c.slotSize n ins) y := by
    intro y hy
    obtain ⟨x, hx, rfl⟩ := List.mem_map.1 hy
    refine ⟨Or.inl rfl, Or.inr (Or.inl ⟨x.1, x.2, rfl, rfl, ?_⟩)⟩
    unfold PCtx.slotSize
    have := List.snd_lt_of_mem_zipIdx hx
    exact Nat.mul_le_mul_right _ (by omega)
  have hred : c.me ∈ outs → ∀ y ∈ (c.slotReduce B r s d n ins).map wloc, GItem c B r s d n ins outs (c.slotSize n ins) y := by
    intro ho y hy
    obtain ⟨x, hx, rfl⟩ := List.mem_map.1 hy
    obtain ⟨h1, op, h2, h3, h4, h5⟩ := slotReduce_shape c B r s d n ins x hx
    exact ⟨Or.inr (Or.inl h1), Or.inr (Or.inr (Or.inl ⟨op, h2, h1, h3, ho, h4, h5⟩))⟩
  intro y hy
  unfold PCtx.gsz
  unfold PCtx.wG at hy
  by_cases c1 : use3 ins = true
  · rw [if_pos c1] at hy ⊢
    unfold PCtx.w3 at hy
    by_cases c2 : c.me ≠ outs.headD 0
    · rw [if_pos c2] at hy
      rcases List.mem_append.1 hy with hy | hy
      · split at hy
        · rename_i hi
          rw [List.mem_singleton] at hy
          subst hy
          exact ⟨Or.inl rfl, Or.inl ⟨_, rfl, rfl, hi⟩⟩
        · cases hy
      · split at hy
        · rename_i ho
          rw [List.mem_singleton] at hy
          subst hy
          exact ⟨Or.inr (Or.inr rfl), Or.inr (Or.inr (Or.inr (Or.inr ⟨_, rfl, rfl, ho⟩)))⟩
        · cases hy
    · rw [if_neg c2] at hy
      have hme : c.me = outs.headD 0 := not_not.1 c2
      have ho : c.me ∈ outs := by
        rw [hme]
        cases outs with
        | nil => exact absurd rfl (hout c1)
        | cons t os => exact List.mem_cons_self
      rw [if_pos hme]
      rcases List.mem_append.1 hy with hy | hy
      · rcases List.mem_append.1 hy with hy | hy
        · exact hrecv y hy
        · exact hred ho y hy
      · obtain ⟨q, _, rfl⟩ := List.mem_map.1 hy
        exact ⟨Or.inr (Or.inr rfl), Or.inr (Or.inr (Or.inr (Or.inl ⟨_, rfl, rfl, ho⟩)))⟩
  · rw [if_neg c1] at hy ⊢
    unfold PCtx.w2 at hy
    rcases List.mem_append.1 hy with hy | hy
    · split at hy
      · rename_i hi
        obtain ⟨q, _, rfl⟩ := List.mem_map.1 hy
        exact ⟨Or.inl rfl, Or.inl ⟨_, rfl, rfl, hi⟩⟩
      · cases hy
    · split at hy
      · rename_i ho
        rw [if_pos ho]
        rcases List.mem_append.1 hy with hy | hy
        · exact hrecv y hy
        · exact hred ho y hy
      · cases hy

/-- The actions of one reduction are in order of rounds. -/
theorem wG_sorted (c : PCtx β) (B r s d n : Nat) (ins outs : List Nat) (pay : Nat → List β) (res : List β) :
    (c.wG B r s d n ins outs pay res).Pairwise (fun y z => y.1 ≤ z.1) := by
  have const : ∀ (l : List (Nat × WIt β)) (k : Nat), (∀ y ∈ l, y.1 = k) → l.Pairwise (fun y z => y.1 ≤ z.1) :=
    fun l k h => List.pairwise_of_forall_mem_list (fun a ha b hb => by rw [h a ha, h b hb])
  have app : ∀ (l l' : List (Nat × WIt β)) (k k' : Nat), k ≤ k' → l.Pairwise (fun y z => y.1 ≤ z.1) → (∀ y ∈ l, y.1 ≤ k) → (∀ y ∈ l', y.1 = k') →
      (l ++ l').Pairwise (fun y z => y.1 ≤ z.1) := by
    intro l l' k k' hk h1 h2 h3
    refine List.pairwise_append.2 ⟨h1, const l' k' h3, ?_⟩
    intro y hy z hz
    have := h2 y hy
    have := h3 z hz
    omega
  have hrecv : ∀ y ∈ c.wRecvs B r n ins pay, y.1 = 3 * r := by
    intro y hy
    obtain ⟨x, hx, rfl⟩ := List.mem_map.1 hy
    rfl
  have hred : ∀ y ∈ (c.slotReduce B r s d n ins).map wloc, y.1 = 3 * r + 1 := by
    intro y hy
    obtain ⟨x, hx, rfl⟩ := List.mem_map.1 hy
    exact (slotReduce_shape c B r s d n ins x hx).1
  unfold PCtx.wG
  split
  · unfold PCtx.w3
    split
    · refine app _ _ (3 * r) (3 * r + 2) (by omega) ?_ ?_ ?_
      · split <;> simp
      · intro y hy
        split at hy
        · rw [List.mem_singleton] at hy; rw [hy]
        · cases hy
      · intro y hy
        split at hy
        · rw [List.mem_singleton] at hy; rw [hy]
        · cases hy
    · refine app _ _ (3 * r + 1) (3 * r + 2) (by omega) (app _ _ (3 * r) (3 * r + 1) (by omega) (const _ _ hrecv) (fun y hy => by rw [hrecv y hy]) hred) ?_ ?_
      · intro y hy
        rcases List.mem_append.1 hy with hy | hy
        · have := hrecv y hy; omega
        · have := hred y hy; omega
      · intro y hy
        obtain ⟨q, _, rfl⟩ := List.mem_map.1 hy
        rfl
  · unfold PCtx.w2
    have hsnd : ∀ y ∈ (if c.me ∈ ins then (outs.filter (fun q => q ≠ c.me)).map (fun q => ((3 * r, ⟨.comm (.send q) s 0 n, pay c.me, []⟩) : Nat × WIt β)) else []),
        y.1 = 3 * r := by
      intro y hy
      split at hy
      · obtain ⟨q, _, rfl⟩ := List.mem_map.1 hy; rfl
      · cases hy
    by_cases ho : c.me ∈ outs
    · rw [if_pos ho, ← List.append_assoc]
      refine app _ _ (3 * r) (3 * r + 1) (by omega) (app _ _ (3 * r) (3 * r) (by omega) (const _ _ hsnd) (fun y hy => by rw [hsnd y hy]) hrecv) ?_ hred
      intro y hy
      rcases List.mem_append.1 hy with hy | hy
      · rw [hsnd y hy]
      · rw [hrecv y hy]
    · rw [if_neg ho, List.append_nil]
      exact const _ _ hsnd

theorem wM_sorted (c : PCtx β) (M : MData β ι) (r B : Nat) (a : CM) : (c.wM M r B a).Pairwise (fun y z => y.1 ≤ z.1) := by
  cases hg : notGred a.key with
  | true => rw [wM_notGred c M r B hg]; exact List.pairwise_singleton _ _
  | false =>
    cases hk : a.key with
    | send => rw [hk] at hg; cases hg
    | recv => rw [hk] at hg; cases hg
    | red => rw [hk] at hg; cases hg
    | gred i o op => rw [wM_gred c M r B hk]; exact wG_sorted ..

end Laik.Mp
