import Verif.Model.MpiSplitRel
/-!
# Effect of the prepared actions of one process

The actions of a process before combining (`F`, one per range) and after all
transformations have the same effect on memory outside of buffers.
-/

namespace Laik.Mp

variable {β ι : Type}

/-! ### Lemmas on sequences of actions with contents -/

theorem mwalk_indep (e : CEnv) (l : List (WIt β)) (hp : l.Pairwise (fun a b => MI e a.body b.body)) : ∀ m : Nat → β, (∀ w ∈ l, wexp e m w) →
    MWalk e m l ∧ ∀ w ∈ l, ∀ x, wr e w.body x = true → mrun e m l x = mstep e m w x := by
  induction l with
  | nil => intro m _; exact ⟨trivial, fun w hw => by cases hw⟩
  | cons w l ih =>
    intro m h
    rw [List.pairwise_cons] at hp
    have hw := h w List.mem_cons_self
    have agree : ∀ w' ∈ l, ∀ x, rd e w'.body x ∨ wr e w'.body x = true → mstep e m w x = m x := by
      intro w' hw' x hx
      apply mstep_frame e hw
      rw [Bool.eq_false_iff]
      intro hwr
      have := (hp.1 w' hw').1 x hwr
      rcases hx with hx | hx
      · exact this.1 hx
      · rw [this.2] at hx; cases hx
    have hl : ∀ w' ∈ l, wexp e (mstep e m w) w' := by
      intro w' hw'
      exact (mstep_local e (fun x => rd e w'.body x ∨ wr e w'.body x = true) w' (agree w' hw') (fun x hx => hx)).1 (h w' (List.mem_cons_of_mem _ hw'))
    obtain ⟨i1, i2⟩ := ih hp.2 (mstep e m w) hl
    refine ⟨⟨hw, i1⟩, ?_⟩
    intro w0 h0 x hx
    show mrun e (mstep e m w) l x = _
    rcases List.mem_cons.1 h0 with rfl | h0
    · rw [mrun_frame e l _ i1]
      intro w' hw'
      exact ((hp.1 w' hw').1 x hx).2
    · rw [i2 w0 h0 x hx]
      exact (mstep_local e (fun x => rd e w0.body x ∨ wr e w0.body x = true) w0 (agree w0 h0) (fun x hx => hx)).2 x (Or.inr hx)

theorem mrun_agree (e : CEnv) (T : Nat → Prop) (l : List (WIt β)) (hl : ∀ w ∈ l, ∀ x, rd e w.body x ∨ wr e w.body x = true → ¬ T x) :
    ∀ m m' : Nat → β, (∀ x, ¬ T x → m x = m' x) → MWalk e m' l → MWalk e m l ∧ ∀ x, ¬ T x → mrun e m l x = mrun e m' l x := by
  induction l with
  | nil => intro m m' h _; exact ⟨trivial, h⟩
  | cons w l ih =>
    intro m m' h hw
    obtain ⟨a, b⟩ := mstep_local e (fun x => ¬ T x) w h (hl w List.mem_cons_self)
    obtain ⟨i1, i2⟩ := ih (fun w' hw' => hl w' (List.mem_cons_of_mem _ hw')) _ _ b hw.2
    exact ⟨⟨a hw.1, i1⟩, i2⟩

theorem mrun_congr (e : CEnv) (l l' : List (WIt β)) (h : l.map (fun w => (w.body, w.inn)) = l'.map (fun w => (w.body, w.inn))) :
    ∀ m, mrun e m l = mrun e m l' := by
  induction l generalizing l' with
  | nil => intro m; cases l' with
    | nil => rfl
    | cons => cases h
  | cons w l ih =>
    intro m
    cases l' with
    | nil => cases h
    | cons w' l' =>
      simp only [List.map_cons, List.cons.injEq, Prod.mk.injEq] at h
      show mrun e (mstep e m w) l = mrun e (mstep e m w') l'
      rw [ih l' h.2]
      congr 1
      unfold mstep
      rw [h.1.1, h.1.2]

/-- Action without communication. -/
def wn (a : CAct β) : WIt β := ⟨a.body, [], []⟩

theorem wn_walk (e : CEnv) (l : List (CAct β)) (h : ∀ a ∈ l, ∃ op, a.body = .other op ∧ op.key = none) :
    (∀ m, MWalk e m (l.map wn)) ∧ (∀ k, (l.map wn).flatMap (WIt.outK e k) = [] ∧ (l.map wn).flatMap (WIt.innK e k) = []) := by
  induction l with
  | nil => exact ⟨fun _ => trivial, fun _ => ⟨rfl, rfl⟩⟩
  | cons a l ih =>
    obtain ⟨i1, i2⟩ := ih (fun b hb => h b (List.mem_cons_of_mem _ hb))
    obtain ⟨op, e1, e2⟩ := h a List.mem_cons_self
    refine ⟨fun m => ⟨?_, i1 _⟩, fun k => ?_⟩
    · simp only [wexp, wn, e1, e2]
    · rw [List.map_cons, List.flatMap_cons, List.flatMap_cons, (i2 k).1, (i2 k).2]
      simp [WIt.outK, WIt.innK, wn, e1]

/-- Contents as stream. -/
def strm (d : β) (L : List β) (i : Nat) : β := L[i]?.getD d

theorem strm_some (d : β) {L : List β} {i : Nat} {v : β} (h : L[i]? = some v) : strm d L i = v := by
  unfold strm; rw [h]; rfl

/-! ### Actions of the ranges -/

/-- Communication action for the indexes `idx`. -/
structure FIt (ι : Type) where
  key : CKey
  src : Nat
  dst : Nat
  idx : List ι

def FIt.body (f : FIt ι) : CBody β := .comm f.key f.src f.dst f.idx.length
def FIt.act (f : FIt ι) : CAct β := ⟨1, f.body⟩

/-- Indexes of a key. -/
def ixOf (F : List (FIt ι)) (k : CKey) : List ι := (F.filter (fun f => f.key = k)).flatMap FIt.idx

theorem ixOf_cons (f : FIt ι) (F : List (FIt ι)) (k : CKey) : ixOf (f :: F) k = (if f.key = k then f.idx else []) ++ ixOf F k := by
  unfold ixOf
  by_cases c : f.key = k
  · rw [List.filter_cons_of_pos (by simpa using c), List.flatMap_cons, if_pos c]
  · rw [List.filter_cons_of_neg (by simpa using c), if_neg c, List.nil_append]

/-- Element got with key `k` for an index. -/
def PCtx.delK (c : PCtx β) (M : MData β ι) (del : CKey → ι → List β) (k : CKey) (i : ι) : List β :=
  match k with
  | .gred a b _ => c.gval M (transGroup c.n c.gs a) (transGroup c.n c.gs b) i
  | _ => del k i

def PCtx.fw (c : PCtx β) (M : MData β ι) (del : CKey → ι → List β) (f : FIt ι) : WIt β :=
  ⟨f.body, f.idx.flatMap (M.elem c.me), f.idx.flatMap (c.delK M del f.key)⟩

theorem fw_outK (c : PCtx β) (M : MData β ι) (del : CKey → ι → List β) (e : CEnv) (k : CKey) (F : List (FIt ι)) :
    (F.map (c.fw M del)).flatMap (WIt.outK e k) = (if e.isIn k then (ixOf F k).flatMap (M.elem c.me) else []) ∧
    (F.map (c.fw M del)).flatMap (WIt.innK e k) = (if e.isOut k then (ixOf F k).flatMap (c.delK M del k) else []) := by
  induction F with
  | nil => constructor <;> split <;> rfl
  | cons f F ih =>
    rw [List.map_cons, List.flatMap_cons, List.flatMap_cons, ih.1, ih.2, ixOf_cons]
    simp only [WIt.outK, WIt.innK, PCtx.fw, FIt.body]
    by_cases c1 : f.key = k
    · subst c1
      constructor
      · by_cases c2 : e.isIn f.key = true <;> simp [c2]
      · by_cases c2 : e.isOut f.key = true <;> simp [c2]
    · constructor <;> simp [c1]

/-- The actions `F` of a process in memory `m0`, and buffers at `B1` and `B2`. -/
structure POK (c : PCtx β) (M : MData β ι) (del : CKey → ι → List β) (B1 : Nat) (m0 : Nat → β) (F : List (FIt ι)) : Prop where
  elem : ElemOK c M.elem
  ix : ∀ k, M.ix k = ixOf F k
  dat : ∀ k, notGred k = true → M.dat k = (M.ix k).flatMap (del k)
  pos : ∀ f ∈ F, f.idx ≠ []
  indep : F.Pairwise (fun a b => MI c.env (a.body (β := β)) b.body)
  pay : ∀ f ∈ F, c.env.isIn f.key = true → readMem m0 f.src (f.idx.length * c.es) = f.idx.flatMap (M.elem c.me)
  del : ∀ f ∈ F, c.env.isOut f.key = true → notGred f.key = true → ∀ i ∈ f.idx, (del f.key i).length = c.es
  outs : ∀ f ∈ F, ∀ i o op, f.key = .gred i o op → use3 (transGroup c.n c.gs i) = true → transGroup c.n c.gs o ≠ []
  buf : ∀ f ∈ F, ∀ x, B1 ≤ x → x < B1 + (combGo c.env [] 0 (F.map (FIt.act (β := β)))).2 * c.es →
    ¬ rd c.env (f.body (β := β)) x ∧ wr c.env (f.body (β := β)) x = false

variable {c : PCtx β} {M : MData β ι} {del : CKey → ι → List β} {B1 B2 B3 : Nat} {m0 : Nat → β} {F : List (FIt ι)}

theorem POK.datK (h : POK c M del B1 m0 F) (k : CKey) : c.datK M k = (M.ix k).flatMap (c.delK M del k) := by
  cases k with
  | gred a b op => rfl
  | send q => exact h.dat _ rfl
  | recv q => exact h.dat _ rfl
  | red r op => exact h.dat _ rfl

theorem POK.delLen (h : POK c M del B1 m0 F) {f : FIt ι} (hf : f ∈ F) (ho : c.env.isOut f.key = true) : ∀ i ∈ f.idx, (c.delK M del f.key i).length = c.es := by
  intro i hi
  have := h.del f hf ho
  cases hk : f.key with
  | gred a b op => exact gredVal_length h.elem _ _ i
  | send q => rw [hk] at this; exact this rfl i hi
  | recv q => rw [hk] at this; exact this rfl i hi
  | red r op => rw [hk] at this; exact this rfl i hi

theorem POK.fexp (h : POK c M del B1 m0 F) : ∀ w ∈ F.map (c.fw M del), wexp c.env m0 w := by
  intro w hw
  obtain ⟨f, hf, rfl⟩ := List.mem_map.1 hw
  exact ⟨fun hi => h.pay f hf hi, fun ho => flatMap_length_const _ (h.delLen hf ho)⟩

theorem POK.fwalk (h : POK c M del B1 m0 F) : MWalk c.env m0 (F.map (c.fw M del)) ∧
    ∀ f ∈ F, ∀ x, wr c.env (f.body (β := β)) x = true → mrun c.env m0 (F.map (c.fw M del)) x = mstep c.env m0 (c.fw M del f) x := by
  have hp : (F.map (c.fw M del)).Pairwise (fun a b => MI c.env a.body b.body) := by
    rw [List.pairwise_map]; exact h.indep
  obtain ⟨a, b⟩ := mwalk_indep c.env _ hp m0 h.fexp
  exact ⟨a, fun f hf x hx => b _ (List.mem_map_of_mem hf) x hx⟩

/-- Streams of all contents before transformation. -/
def PCtx.inp0 (c : PCtx β) (M : MData β ι) (m0 : Nat → β) (k : CKey) : Nat → β := strm (m0 0) (c.datK M k)

def PCtx.V0 (_c : PCtx β) (F : List (FIt ι)) : List (CAct β) := F.map FIt.act
def PCtx.V1 (c : PCtx β) (B1 : Nat) (F : List (FIt ι)) : List (CAct β) := c.comb1 B1 (c.V0 F)

theorem POK.run0 (h : POK c M del B1 m0 F) :
    (runOps ((c.V0 F).map (CAct.op c.env (c.inp0 M m0))) (MSt.ofMem m0)).mem = mrun c.env m0 (F.map (c.fw M del)) ∧
    ∀ k, (runOps ((c.V0 F).map (CAct.op c.env (c.inp0 M m0))) (MSt.ofMem m0)).out k = if c.env.isIn k then c.payK M k else [] := by
  have e : (c.V0 F).map (CAct.op c.env (c.inp0 M m0)) = (F.map (c.fw M del)).map (fun w => w.body.op c.env (c.inp0 M m0)) := by
    unfold PCtx.V0
    rw [List.map_map, List.map_map]
    rfl
  obtain ⟨r1, r2, _⟩ := walk_run c.env (c.inp0 M m0) (F.map (c.fw M del)) (MSt.ofMem m0) h.fwalk.1 (by
    intro k i v hv
    rw [(fw_outK c M del c.env k F).2] at hv
    show c.inp0 M m0 k (0 + i) = v
    rw [Nat.zero_add]
    split at hv
    · unfold PCtx.inp0
      apply strm_some
      rw [h.datK, h.ix]
      exact hv
    · cases hv)
  rw [e]
  refine ⟨r1, fun k => ?_⟩
  rw [r2, (fw_outK c M del c.env k F).1]
  show [] ++ _ = _
  rw [List.nil_append]
  unfold PCtx.payK
  rw [h.ix]

/-! ### Combined actions -/

def toCM (a : CAct β) : Option CM :=
  match a.body with
  | .comm k s d n => some ⟨k, s, d, n⟩
  | .other _ => none

def PCtx.Ms (c : PCtx β) (B1 : Nat) (F : List (FIt ι)) : List CM := (c.V1 B1 F).filterMap toCM

theorem V1_shape (c : PCtx β) (B1 : Nat) (F : List (FIt ι)) : ∀ y ∈ c.V1 B1 F,
    (y.round = 4 ∧ ∃ k s d n, y.body = .comm k s d n) ∨ ((y.round = 3 ∨ y.round = 5) ∧ ∃ op, y.body = .other op ∧ op.key = none) := by
  intro y hy
  obtain ⟨a, ha, h⟩ := comb1_shape c B1 _ y hy
  obtain ⟨f, _, rfl⟩ := List.mem_map.1 ha
  rcases h with ⟨h1, h2 | ⟨k, s, n, h2⟩⟩ | ⟨h1, h2⟩
  · exact Or.inl ⟨h1, _, _, _, _, h2⟩
  · exact Or.inl ⟨h1, _, _, _, _, h2⟩
  · exact Or.inr ⟨h1, h2⟩

theorem filter_toCM (l : List (CAct β)) (h : ∀ y ∈ l, (y.round = 4 ∧ ∃ k s d n, y.body = .comm k s d n) ∨
    ((y.round = 3 ∨ y.round = 5) ∧ ∃ op, y.body = .other op ∧ op.key = none)) : l.filter (fun a => a.round = 4) = (l.filterMap toCM).map (CM.act 4) := by
  induction l with
  | nil => rfl
  | cons y l ih =>
    have ih' := ih (fun z hz => h z (List.mem_cons_of_mem _ hz))
    rcases h y List.mem_cons_self with ⟨h1, k, s, d, n, h2⟩ | ⟨h1, op, h2, _⟩
    · rw [List.filter_cons_of_pos (by simpa using h1), List.filterMap_cons_some (b := ⟨k, s, d, n⟩) (by simp [toCM, h2]), List.map_cons, ih']
      congr 1
      cases y
      simp only at h1 h2
      subst h1; subst h2
      rfl
    · rw [List.filter_cons_of_neg (by simp; omega), List.filterMap_cons_none (by simp [toCM, h2]), ih']

theorem total_V0 (c : PCtx β) (F : List (FIt ι)) (k : CKey) : total (c.V0 F) (1, k) = (ixOf F k).length := by
  induction F with
  | nil => rfl
  | cons f F ih =>
    show total (f.act :: c.V0 F) (1, k) = _
    rw [total_cons, ih, ixOf_cons, List.length_append]
    congr 1
    unfold FIt.act CAct.same FIt.body CAct.count
    by_cases c1 : f.key = k <;> simp [c1]

/-- Keys and sizes of the combined actions. -/
theorem Ms_keys (c : PCtx β) (B1 : Nat) (F : List (FIt ι)) :
    (c.Ms B1 F).map (fun a => (a.key, a.cnt)) = (firsts (F.map FIt.key)).map (fun k => (k, (ixOf F k).length)) := by
  have h1 := comb1_msgs c B1 (c.V0 F)
  have h2 : (c.V0 F).filterMap akey = (F.map FIt.key).map (fun k => (1, k)) := by
    unfold PCtx.V0
    rw [List.filterMap_map, List.map_map, ← List.filterMap_eq_map]
    apply List.filterMap_congr
    intro f _
    rfl
  rw [h2, firsts_map (fun k => (1, k)) _ (fun x _ y _ e => (Prod.mk.inj e).2)] at h1
  have h3 : (c.Ms B1 F).map (fun a => (a.key, a.cnt)) = ((c.comb1 B1 (c.V0 F)).filterMap amsg).map (fun x => x.2) := by
    unfold PCtx.Ms PCtx.V1
    rw [List.map_filterMap, List.map_filterMap]
    apply List.filterMap_congr
    intro a _
    unfold toCM amsg
    cases a.body <;> rfl
  rw [h3, h1, List.map_map, List.map_map]
  apply List.map_congr_left
  intro k _
  simp only [Function.comp, total_V0]

theorem Ms_keys' (c : PCtx β) (B1 : Nat) (F : List (FIt ι)) : (c.Ms B1 F).map CM.key = firsts (F.map FIt.key) := by
  have := congrArg (List.map Prod.fst) (Ms_keys c B1 F)
  rw [List.map_map, List.map_map] at this
  exact this.trans (List.map_id _)

theorem Ms_cnt (c : PCtx β) (B1 : Nat) (F : List (FIt ι)) : ∀ a ∈ c.Ms B1 F, a.cnt = (ixOf F a.key).length ∧ a.key ∈ F.map FIt.key := by
  intro a ha
  have h1 : (a.key, a.cnt) ∈ (c.Ms B1 F).map (fun a => (a.key, a.cnt)) := List.mem_map_of_mem ha
  rw [Ms_keys] at h1
  obtain ⟨k, hk, e⟩ := List.mem_map.1 h1
  rw [Prod.mk.injEq] at e
  rw [← e.2, e.1]
  refine ⟨rfl, ?_⟩
  rw [← e.1]
  exact mem_firsts.1 hk

theorem Ms_nodup (c : PCtx β) (B1 : Nat) (F : List (FIt ι)) : ((c.Ms B1 F).map CM.key).Nodup := by
  rw [Ms_keys']
  exact firstsGo_nodup _ _

theorem Ms_mem (c : PCtx β) (B1 : Nat) (F : List (FIt ι)) {a : CM} (ha : a ∈ c.Ms B1 F) : CM.act 4 a ∈ c.V1 B1 F := by
  have h1 : CM.act 4 a ∈ (c.Ms B1 F).map (CM.act (β := β) 4) := List.mem_map_of_mem ha
  rw [PCtx.Ms, ← filter_toCM _ (V1_shape c B1 F)] at h1
  exact (List.mem_filter.1 h1).1

/-- Cells of buffer 1. -/
def PCtx.buf1 (c : PCtx β) (B1 : Nat) (F : List (FIt ι)) (x : Nat) : Prop :=
  B1 ≤ x ∧ x < B1 + (combGo c.env [] 0 (F.map (FIt.act (β := β)))).2 * c.es

/-- Cells of the actions of the ranges. -/
def PCtx.used (c : PCtx β) (F : List (FIt ι)) (x : Nat) : Prop :=
  ∃ f ∈ F, rd c.env (f.body (β := β)) x ∨ wr c.env (f.body (β := β)) x = true

theorem POK.seqRel0 (h : POK c M del B1 m0 F) (dep : Bool) (inp : CKey → Nat → β) : (c.V0 F).Pairwise (SeqRel dep c.env inp) := by
  unfold PCtx.V0
  rw [List.pairwise_map]
  refine h.indep.imp ?_
  intro a b hab
  refine ⟨Nat.le_refl _, fun _ => Or.inl ⟨(mi_iff c.env inp _ _).2 hab, ?_⟩⟩
  exact key_cases (fun op e => by cases e) (fun op e => by cases e)

theorem POK.hbuf0 (h : POK c M del B1 m0 F) (inp : CKey → Nat → β) : ∀ a ∈ c.V0 F, ∀ x, B1 ≤ x → x < B1 + (combGo c.env [] 0 (c.V0 F)).2 * c.es →
    ¬ (a.op c.env inp).R x ∧ (a.op c.env inp).W x = false := by
  intro a ha x h1 h2
  obtain ⟨f, hf, rfl⟩ := List.mem_map.1 ha
  have := h.buf f hf x h1 h2
  unfold CAct.op
  rw [rd_op, wr_op]
  exact this

theorem V1_fp (c : PCtx β) (inp : CKey → Nat → β) (B1 : Nat) (F : List (FIt ι)) : ∀ y ∈ c.V1 B1 F, ∀ x,
    rd c.env y.body x ∨ wr c.env y.body x = true → c.buf1 B1 F x ∨ c.used F x := by
  intro y hy x hx
  obtain ⟨f1, f2⟩ := comb1_fp c inp B1 (c.V0 F) y hy
  unfold CAct.op at f1 f2
  rcases hx with hx | hx
  · rcases f1 x ((rd_op c.env inp _ x).2 hx) with h | ⟨a, ha, h⟩
    · exact Or.inl h
    · obtain ⟨f, hf, rfl⟩ := List.mem_map.1 ha
      exact Or.inr ⟨f, hf, Or.inl ((rd_op c.env inp _ x).1 h)⟩
  · rcases f2 x ((wr_op c.env inp _ x).trans hx) with h | ⟨a, ha, h⟩
    · exact Or.inl h
    · obtain ⟨f, hf, rfl⟩ := List.mem_map.1 ha
      exact Or.inr ⟨f, hf, Or.inr ((wr_op c.env inp _ x).symm.trans h)⟩

theorem POK.indep1 (h : POK c M del B1 m0 F) (inp : CKey → Nat → β) : (c.V1 B1 F).Pairwise (fun y z => y.round < z.round ∨ MI c.env y.body z.body) := by
  refine (comb1_pairwise c inp B1 (c.V0 F) (h.seqRel0 false inp) (h.hbuf0 inp)).imp ?_
  intro y z hyz
  rcases hyz with hyz | hyz | ⟨hd, _⟩
  · exact Or.inl hyz
  · exact Or.inr ((mi_iff c.env inp _ _).1 hyz.1)
  · cases hd

theorem Ms_indep (h : POK c M del B1 m0 F) : (c.Ms B1 F).Pairwise (fun a b => MI c.env (a.body (β := β)) b.body) := by
  have h1 := (h.indep1 (c.inp0 M m0)).sublist (List.filter_sublist (p := fun a => decide (a.round = 4)))
  rw [filter_toCM _ (V1_shape c B1 F), List.pairwise_map] at h1
  refine h1.imp ?_
  intro a b hab
  exact hab.resolve_left (Nat.lt_irrefl 4)

theorem flat_key {α : Type} {l : List CM} (hn : (l.map CM.key).Nodup) (g : CM → List α) (k : CKey) (hg : ∀ a ∈ l, a.key ≠ k → g a = []) :
    (∀ a ∈ l, a.key = k → l.flatMap g = g a) ∧ (k ∉ l.map CM.key → l.flatMap g = []) := by
  induction l with
  | nil => exact ⟨fun a ha => (by cases ha), fun _ => rfl⟩
  | cons b l ih =>
    rw [List.map_cons, List.nodup_cons] at hn
    obtain ⟨i1, i2⟩ := ih hn.2 (fun a ha => hg a (List.mem_cons_of_mem _ ha))
    rw [List.flatMap_cons]
    constructor
    · intro a ha hk
      rcases List.mem_cons.1 ha with rfl | ha
      · rw [i2 (by rw [← hk]; exact hn.1), List.append_nil]
      · rw [hg b List.mem_cons_self, i1 a ha hk, List.nil_append]
        rintro rfl
        exact hn.1 (hk ▸ List.mem_map_of_mem ha)
    · intro hk
      rw [List.map_cons, List.mem_cons, not_or] at hk
      rw [hg b List.mem_cons_self (fun e => hk.1 e.symm), i2 hk.2, List.nil_append]

/-- Actions before and after the communication. -/
def PCtx.A1 (c : PCtx β) (B1 : Nat) (F : List (FIt ι)) : List (CAct β) := (c.V1 B1 F).filter (fun a => a.round = 3)
def PCtx.E1 (c : PCtx β) (B1 : Nat) (F : List (FIt ι)) : List (CAct β) := (c.V1 B1 F).filter (fun a => a.round = 5)

theorem A1_other (c : PCtx β) (B1 : Nat) (F : List (FIt ι)) : (∀ a ∈ c.A1 B1 F, ∃ op, a.body = .other op ∧ op.key = none) ∧
    (∀ a ∈ c.E1 B1 F, ∃ op, a.body = .other op ∧ op.key = none) := by
  constructor <;>
  · intro a ha
    obtain ⟨h1, h2⟩ := List.mem_filter.1 ha
    rw [decide_eq_true_eq] at h2
    rcases V1_shape c B1 F a h1 with ⟨h3, _⟩ | ⟨_, h3⟩
    · omega
    · exact h3

theorem perm_blocks {α : Type} (rd : α → Nat) (rs : List Nat) (hn : rs.Nodup) : ∀ L : List α, (∀ x ∈ L, rd x ∈ rs) →
    (rs.flatMap (fun r => L.filter (fun x => rd x = r))).Perm L := by
  induction rs with
  | nil =>
    intro L h
    cases L with
    | nil => exact List.Perm.nil
    | cons x L => exact absurd (h x List.mem_cons_self) (by simp)
  | cons r rs ih =>
    intro L h
    rw [List.nodup_cons] at hn
    have h1 := ih hn.2 (L.filter (fun x => !decide (rd x = r))) (by
      intro x hx
      obtain ⟨hx1, hx2⟩ := List.mem_filter.1 hx
      rcases List.mem_cons.1 (h x hx1) with e | e
      · simp [e] at hx2
      · exact e)
    have h2 : rs.flatMap (fun r' => (L.filter (fun x => !decide (rd x = r))).filter (fun x => rd x = r')) = rs.flatMap (fun r' => L.filter (fun x => rd x = r')) := by
      apply List.flatMap_congr
      intro r' hr'
      rw [List.filter_filter]
      apply List.filter_congr
      intro x _
      by_cases c : rd x = r'
      · have : rd x ≠ r := by rintro e; exact hn.1 (e ▸ c ▸ hr')
        simp [c]
        exact fun e => this (c.trans e)
      · simp [c]
    rw [h2] at h1
    rw [List.flatMap_cons]
    exact ((List.Perm.refl _).append h1).trans (List.filter_append_perm (fun x => decide (rd x = r)) L)

/-- Combined actions in order of rounds. -/
theorem POK.run1 (h : POK c M del B1 m0 F) (inp : CKey → Nat → β) (s : MSt CKey β) : SameOutside (c.buf1 B1 F) (runOps ((c.V0 F).map (CAct.op c.env inp)) s)
    (runOps ((c.A1 B1 F ++ (c.Ms B1 F).map (CM.act 4) ++ c.E1 B1 F).map (CAct.op c.env inp)) s) := by
  have h1 := comb_stable c inp B1 (c.V0 F) ([3, 4, 5].flatMap (fun r => (c.V1 B1 F).zipIdx.filter (fun x => x.1.round = r))) (h.seqRel0 true inp) (h.hbuf0 inp)
    (by
      apply perm_blocks (fun x : CAct β × Nat => x.1.round) [3, 4, 5] (by simp)
      intro x hx
      have := V1_shape c B1 F x.1 (List.fst_mem_of_mem_zipIdx hx)
      simp only [List.mem_cons, List.not_mem_nil, or_false]
      omega)
    (by
      have := blocks_pairwise (fun x : CAct β × Nat => x.1.round) [3, 4, 5] (by simp) (c.V1 B1 F).zipIdx (zipIdx_lt _ 0)
      refine this.imp ?_
      intro a b hab
      rcases hab with hab | ⟨h1, h2⟩
      · exact ⟨Nat.le_of_lt hab, fun e => absurd e (Nat.ne_of_lt hab)⟩
      · exact ⟨Nat.le_of_eq h1, fun _ _ _ => Nat.le_of_lt h2⟩) s
  have h2 : ([3, 4, 5].flatMap (fun r => (c.V1 B1 F).zipIdx.filter (fun x => x.1.round = r))).map (·.1) =
      c.A1 B1 F ++ (c.Ms B1 F).map (CM.act 4) ++ c.E1 B1 F := by
    have h3 : ∀ r, ((c.V1 B1 F).zipIdx.filter (fun x => x.1.round = r)).map (·.1) = (c.V1 B1 F).filter (fun x => x.round = r) := by
      intro r
      have : ((c.V1 B1 F).zipIdx.map (·.1)).filter (fun x => x.round = r) = ((c.V1 B1 F).zipIdx.filter (fun x => x.1.round = r)).map (·.1) := by
        rw [List.filter_map]
        rfl
      rw [← this, List.zipIdx_map_fst]
    rw [List.map_flatMap]
    simp only [h3, List.flatMap_cons, List.flatMap_nil, List.append_nil]
    rw [filter_toCM _ (V1_shape c B1 F), List.append_assoc]
    rfl
  rw [h2] at h1
  exact h1

/-- Memory before communication. -/
def PCtx.m1 (c : PCtx β) (B1 : Nat) (F : List (FIt ι)) (m0 : Nat → β) : Nat → β := mrun c.env m0 ((c.A1 B1 F).map wn)

theorem key_inj {F : List (FIt ι)} {k : CKey} (h : k ∈ F.map FIt.key) : ∃ f ∈ F, f.key = k := List.mem_map.1 h

theorem POK.datLenM (h : POK c M del B1 m0 F) : ∀ a ∈ c.Ms B1 F, c.env.isOut a.key = true → (c.datK M a.key).length = a.cnt * c.es := by
  intro a ha ho
  obtain ⟨h1, h2⟩ := Ms_cnt c B1 F a ha
  rw [h.datK, h1, h.ix]
  apply flatMap_length_const
  intro i hi
  unfold ixOf at hi
  obtain ⟨f, hf, hi⟩ := List.mem_flatMap.1 hi
  obtain ⟨hf, e⟩ := List.mem_filter.1 hf
  rw [decide_eq_true_eq] at e
  rw [← e] at ho ⊢
  exact h.delLen hf ho i hi

theorem POK.payM (h : POK c M del B1 m0 F) : ∀ a ∈ c.Ms B1 F, c.env.isIn a.key = true → readMem (c.m1 B1 F m0) a.src (a.cnt * c.es) = c.payK M a.key := by
  let g : CM → WIt β := fun a => ⟨a.body, readMem (c.m1 B1 F m0) a.src (a.cnt * c.es), c.datK M a.key⟩
  let W := (c.A1 B1 F).map wn ++ (c.Ms B1 F).map g ++ (c.E1 B1 F).map wn
  have hA := wn_walk c.env (c.A1 B1 F) (A1_other c B1 F).1
  have hE := wn_walk c.env (c.E1 B1 F) (A1_other c B1 F).2
  have hM : MWalk c.env (c.m1 B1 F m0) ((c.Ms B1 F).map g) := by
    refine (mwalk_indep c.env _ ?_ _ ?_).1
    · rw [List.pairwise_map]; exact Ms_indep h
    · intro w hw
      obtain ⟨a, ha, rfl⟩ := List.mem_map.1 hw
      exact ⟨fun _ => rfl, fun ho => h.datLenM a ha ho⟩
  have hW : MWalk c.env m0 W := by
    rw [mwalk_append, mwalk_append]
    exact ⟨⟨hA.1 _, hM⟩, hE.1 _⟩
  have hgo : ∀ k, ∀ a ∈ c.Ms B1 F, a.key ≠ k → (g a).outK c.env k = [] ∧ (g a).innK c.env k = [] := by
    intro k a _ hne
    simp only [g, WIt.outK, WIt.innK, CM.body]
    simp [hne]
  have hflat : ∀ k, W.flatMap (WIt.outK c.env k) = (c.Ms B1 F).flatMap (fun a => (g a).outK c.env k) ∧
      W.flatMap (WIt.innK c.env k) = (c.Ms B1 F).flatMap (fun a => (g a).innK c.env k) := by
    intro k
    simp only [W, List.flatMap_append, (hA.2 k).1, (hA.2 k).2, (hE.2 k).1, (hE.2 k).2, List.nil_append, List.append_nil, List.flatMap_map]
    exact ⟨trivial, trivial⟩
  obtain ⟨_, r2, _⟩ := walk_run c.env (c.inp0 M m0) W (MSt.ofMem m0) hW (by
    intro k i v hv
    rw [(hflat k).2] at hv
    obtain ⟨f1, f2⟩ := flat_key (Ms_nodup c B1 F) (fun a => (g a).innK c.env k) k (fun a ha hne => (hgo k a ha hne).2)
    by_cases hk : k ∈ (c.Ms B1 F).map CM.key
    · obtain ⟨a, ha, rfl⟩ := List.mem_map.1 hk
      rw [f1 a ha rfl] at hv
      show c.inp0 M m0 a.key (0 + i) = v
      rw [Nat.zero_add]
      apply strm_some
      simp only [g, WIt.innK, CM.body] at hv
      split at hv
      · exact hv
      · cases hv
    · rw [f2 hk] at hv
      cases hv)
  intro a ha hi
  have e : (c.A1 B1 F ++ (c.Ms B1 F).map (CM.act 4) ++ c.E1 B1 F).map (CAct.op c.env (c.inp0 M m0)) = W.map (fun w => w.body.op c.env (c.inp0 M m0)) := by
    simp only [W, List.map_append, List.map_map]
    rfl
  have hs := congrFun (h.run1 (c.inp0 M m0) (MSt.ofMem m0)).1 a.key
  rw [h.run0.2 a.key, if_pos hi, e, r2, (hflat a.key).1, (flat_key (Ms_nodup c B1 F) (fun a' => (g a').outK c.env a.key) a.key (fun a ha hne => (hgo _ a ha hne).1)).1 a ha rfl] at hs
  rw [hs]
  show _ = [] ++ _
  rw [List.nil_append]
  simp only [g, WIt.outK, CM.body]
  rw [if_pos ⟨trivial, hi⟩]

/-! ### Split group reductions -/

/-- Cells of buffer 2. -/
def PCtx.buf2 (c : PCtx β) (B1 B2 : Nat) (F : List (FIt ι)) (x : Nat) : Prop := B2 ≤ x ∧ x < B2 + c.gsizes (c.Ms B1 F)

theorem POK.mok (h : POK c M del B1 m0 F) (hb : ∀ x, c.buf2 B1 B2 F x → ¬ c.used F x ∧ ¬ c.buf1 B1 F x) : MOK c M B2 (c.m1 B1 F m0) (c.Ms B1 F) where
  elem := h.elem
  nodup := Ms_nodup c B1 F
  indep := Ms_indep h
  buf a ha x h1 h2 := by
    have hf := V1_fp c (c.inp0 M m0) B1 F _ (Ms_mem c B1 F ha) x
    have hx := hb x ⟨h1, h2⟩
    refine ⟨fun hr => ?_, ?_⟩
    · rcases hf (Or.inl hr) with h | h
      · exact hx.2 h
      · exact hx.1 h
    · rw [Bool.eq_false_iff]
      intro hw
      rcases hf (Or.inr hw) with h | h
      · exact hx.2 h
      · exact hx.1 h
  cnt a ha := by rw [h.ix]; exact (Ms_cnt c B1 F a ha).1
  pay := h.payM
  dat a ha ho hg := by rw [← datK_notGred c M hg]; exact h.datLenM a ha ho
  outs a ha i o op hk := by
    obtain ⟨f, hf, e⟩ := key_inj (Ms_cnt c B1 F a ha).2
    exact h.outs f hf i o op (e.trans hk)

/-- Communication with its calculations in order of rounds, with contents. -/
def PCtx.C3 (c : PCtx β) (M : MData β ι) (B1 B2 : Nat) (F : List (FIt ι)) : List (CKey × Nat × WIt β) := blocks3 4 (c.wMs M 4 B2 (c.Ms B1 F))

def PCtx.W3 (c : PCtx β) (M : MData β ι) (B1 B2 : Nat) (F : List (FIt ι)) : List (WIt β) :=
  (c.A1 B1 F).map wn ++ (c.C3 M B1 B2 F).map (·.2.2) ++ (c.E1 B1 F).map wn

/-- Actions after splitting and sorting. -/
def PCtx.V3 (c : PCtx β) (M : MData β ι) (B1 B2 : Nat) (F : List (FIt ι)) : List (CAct β) :=
  (c.A1 B1 F).map (fun a => ⟨10, a.body⟩) ++ (c.C3 M B1 B2 F).map (fun x => unw x.2) ++ (c.E1 B1 F).map (fun a => ⟨16, a.body⟩)

theorem splitGo_step (c : PCtx β) (B : Nat) (a : CAct β) : (∀ l, c.splitGo B (a :: l) = none) ∨
    ∃ x n, (∀ l, c.splitGo B (a :: l) = (c.splitGo (B + n) l).map (x ++ ·)) ∧ (CAct.isGred a = false → x = [⟨3 * a.round + 1, a.body⟩] ∧ n = 0) ∧
      ∀ y ∈ x, y.round / 3 = a.round := by
  cases hg : CAct.isGred a with
  | false =>
    right
    refine ⟨[⟨3 * a.round + 1, a.body⟩], 0, fun l => ?_, fun _ => ⟨rfl, rfl⟩, ?_⟩
    · rw [splitGo_other c B l hg]; rfl
    · intro y hy
      rw [List.mem_singleton] at hy
      subst hy
      show (3 * a.round + 1) / 3 = a.round
      omega
  | true =>
    unfold CAct.isGred at hg
    split at hg
    · rename_i i o op s d n hb
      have hs := fun l => splitGo_gred c B (a := a) l hb
      cases hx : (if (transGroup c.n c.gs i).length * (transGroup c.n c.gs i).length > 4 * ((transGroup c.n c.gs i).length + (transGroup c.n c.gs i).length)
         then c.red3 B a.round s d n (transGroup c.n c.gs i) (transGroup c.n c.gs o)
         else c.red2 B a.round s d n (transGroup c.n c.gs i) (transGroup c.n c.gs o)) with
      | none =>
        left
        intro l
        rw [hs l, hx]; rfl
      | some x =>
        right
        have h1 : ∀ l, c.splitGo B (a :: l) = (c.splitGo (B + x.2) l).map (x.1 ++ ·) := by
          intro l
          rw [hs l, hx]; rfl
        refine ⟨x.1, x.2, h1, fun h => absurd h (by simp), ?_⟩
        intro y hy
        have h2 : c.splitGo B [a] = some x.1 := by
          rw [h1 []]
          show some (x.1 ++ []) = _
          rw [List.append_nil]
        obtain ⟨a', ha', e⟩ := splitGo_rounds c [a] B x.1 h2 y hy
        rw [List.mem_singleton] at ha'
        rw [e, ha']
    · cases hg

theorem splitGo_V1 (c : PCtx β) (l : List (CAct β)) : (∀ y ∈ l, (y.round = 4 ∧ ∃ k s d n, y.body = .comm k s d n) ∨
    ((y.round = 3 ∨ y.round = 5) ∧ ∃ op, y.body = .other op ∧ op.key = none)) → ∀ B v, c.splitGo B l = some v →
    ∃ vM, c.splitGo B ((l.filterMap toCM).map (CM.act 4)) = some vM ∧
      v.filter (fun a => a.round = 10) = (l.filter (fun a => a.round = 3)).map (fun a => ⟨10, a.body⟩) ∧
      v.filter (fun a => a.round = 16) = (l.filter (fun a => a.round = 5)).map (fun a => ⟨16, a.body⟩) ∧
      (∀ r', r' = 12 ∨ r' = 13 ∨ r' = 14 → v.filter (fun a => a.round = r') = vM.filter (fun a => a.round = r')) ∧
      ∀ a ∈ v, a.round ∈ [10, 12, 13, 14, 16] := by
  induction l with
  | nil =>
    intro _ B v h
    cases h
    exact ⟨[], rfl, rfl, rfl, fun _ _ => rfl, fun a ha => by cases ha⟩
  | cons y l ih =>
    intro hsh B v h
    have ih' := ih (fun z hz => hsh z (List.mem_cons_of_mem _ hz))
    rcases splitGo_step c B y with hno | ⟨x, n, hx, hx2, hx3⟩
    · rw [hno] at h; cases h
    rw [hx] at h
    cases hv : c.splitGo (B + n) l with
    | none => rw [hv] at h; cases h
    | some v' =>
      rw [hv, Option.map_some, Option.some.injEq] at h
      subst h
      obtain ⟨vM, j1, j2, j3, j4, j5⟩ := ih' _ _ hv
      rcases hsh y List.mem_cons_self with ⟨h1, k, s, d, n', h2⟩ | ⟨h1, op, h2, _⟩
      · have hxr : ∀ z ∈ x, z.round = 12 ∨ z.round = 13 ∨ z.round = 14 := by
          intro z hz
          have := hx3 z hz
          omega
        have hnil : ∀ r, r = 10 ∨ r = 16 → x.filter (fun a => a.round = r) = [] := by
          intro r hr
          rw [List.filter_eq_nil_iff]
          intro z hz
          have := hxr z hz
          rw [decide_eq_true_eq]
          omega
        refine ⟨x ++ vM, ?_, ?_, ?_, ?_, ?_⟩
        · rw [List.filterMap_cons_some (b := ⟨k, s, d, n'⟩) (by simp [toCM, h2]), List.map_cons]
          have : CM.act 4 ⟨k, s, d, n'⟩ = y := by
            cases y
            simp only at h1 h2
            subst h1; subst h2; rfl
          rw [this, hx, j1]
          rfl
        · rw [List.filter_append, hnil 10 (Or.inl rfl), List.nil_append, j2, List.filter_cons_of_neg (by simp; omega)]
        · rw [List.filter_append, hnil 16 (Or.inr rfl), List.nil_append, j3, List.filter_cons_of_neg (by simp; omega)]
        · intro r' hr'
          rw [List.filter_append, List.filter_append, j4 r' hr']
        · intro a ha
          rcases List.mem_append.1 ha with ha | ha
          · have := hxr a ha
            simp only [List.mem_cons, List.not_mem_nil, or_false]
            omega
          · exact j5 a ha
      · have hng : CAct.isGred y = false := by unfold CAct.isGred; rw [h2]
        obtain ⟨ex, en⟩ := hx2 hng
        subst ex; subst en
        refine ⟨vM, ?_, ?_, ?_, ?_, ?_⟩
        · rw [List.filterMap_cons_none (by simp [toCM, h2])]
          exact j1
        · rw [List.singleton_append]
          rcases h1 with h1 | h1
          · rw [List.filter_cons_of_pos (by simp [h1]), List.filter_cons_of_pos (by simp [h1]), List.map_cons, j2, h1]
          · rw [List.filter_cons_of_neg (by simp [h1]), List.filter_cons_of_neg (by simp [h1]), j2]
        · rw [List.singleton_append]
          rcases h1 with h1 | h1
          · rw [List.filter_cons_of_neg (by simp [h1]), List.filter_cons_of_neg (by simp [h1]), j3]
          · rw [List.filter_cons_of_pos (by simp [h1]), List.filter_cons_of_pos (by simp [h1]), List.map_cons, j3, h1]
        · intro r' hr'
          rw [List.singleton_append, List.filter_cons_of_neg, j4 r' hr']
          rw [decide_eq_true_eq]
          show ¬ 3 * y.round + 1 = r'
          omega
        · intro a ha
          rcases List.mem_append.1 ha with ha | ha
          · rw [List.mem_singleton] at ha
            subst ha
            simp only [List.mem_cons, List.not_mem_nil, or_false]
            omega
          · exact j5 a ha

/-- Result of splitting and sorting by rounds. -/
theorem V3_eq (c : PCtx β) (M : MData β ι) (B1 B2 : Nat) (F : List (FIt ι)) {v : List (CAct β)} (hv : c.splitGo B2 (c.V1 B1 F) = some v)
    {S : List (CAct β × Nat)} (hS : SortOf cmpRounds v S) : S.map (·.1) = c.V3 M B1 B2 F := by
  obtain ⟨vM, j1, j2, j3, j4, j5⟩ := splitGo_V1 c (c.V1 B1 F) (V1_shape c B1 F) B2 v hv
  rw [sortRounds_blocks hS [10, 12, 13, 14, 16] (by simp) j5]
  have h1 := wMs_unw c M 4 (c.Ms B1 F) B2 vM j1
  simp only [List.flatMap_cons, List.flatMap_nil, List.append_nil]
  rw [j2, j3, j4 12 (by simp), j4 13 (by simp), j4 14 (by simp)]
  unfold PCtx.V3 PCtx.C3 blocks3
  rw [List.map_flatMap]
  have h2 : ∀ r', ((c.wMs M 4 B2 (c.Ms B1 F)).filter (fun x => x.2.1 = r')).map (fun x => unw x.2) = vM.filter (fun a => a.round = r') := by
    intro r'
    rw [← h1, List.filter_map]
    rfl
  simp only [h2, List.flatMap_cons, List.flatMap_nil, List.append_nil]
  rw [List.append_assoc, List.append_assoc, List.append_assoc]
  rfl

theorem C3_mem (c : PCtx β) (M : MData β ι) (B1 B2 : Nat) (F : List (FIt ι)) : ∀ y ∈ c.C3 M B1 B2 F, y ∈ c.wMs M 4 B2 (c.Ms B1 F) ∧
    (y.2.1 = 12 ∨ y.2.1 = 13 ∨ y.2.1 = 14) := by
  intro y hy
  unfold PCtx.C3 blocks3 at hy
  obtain ⟨r, hr, hy⟩ := List.mem_flatMap.1 hy
  obtain ⟨h1, h2⟩ := List.mem_filter.1 hy
  rw [decide_eq_true_eq] at h2
  simp only [List.mem_cons, List.not_mem_nil, or_false] at hr
  exact ⟨h1, by omega⟩

theorem POK.seqRel3 (h : POK c M del B1 m0 F) (hb : ∀ x, c.buf2 B1 B2 F x → ¬ c.used F x ∧ ¬ c.buf1 B1 F x) (inp : CKey → Nat → β) :
    (c.V3 M B1 B2 F).Pairwise (SeqRel true c.env inp) := by
  have key : ∀ (r r' : Nat) (L : List (CAct β)), (∀ a ∈ L, ∃ op, a.body = .other op ∧ op.key = none) → (L.map (fun a => (⟨r', a.body⟩ : CAct β))).Pairwise (SeqRel true c.env inp) := by
    intro r r' L hL
    rw [List.pairwise_map]
    apply List.pairwise_of_forall_mem_list
    intro a ha b hb
    obtain ⟨op, e1, _⟩ := hL a ha
    obtain ⟨op', e2, _⟩ := hL b hb
    refine ⟨Nat.le_refl _, fun _ => Or.inr ⟨rfl, ?_, ?_⟩⟩
    · unfold CAct.isOth; simp only [e1]
    · unfold CAct.isOth; simp only [e2]
  have hA := A1_other c B1 F
  unfold PCtx.V3
  have hlt : ∀ {a b : CAct β}, a.round < b.round → SeqRel true c.env inp a b :=
    fun hh => ⟨Nat.le_of_lt hh, fun e => absurd e (Nat.ne_of_lt hh)⟩
  have hC : ∀ a ∈ (c.C3 M B1 B2 F).map (fun x => unw x.2), 12 ≤ a.round ∧ a.round ≤ 14 := by
    intro a ha
    obtain ⟨y, hy, rfl⟩ := List.mem_map.1 ha
    have := (C3_mem c M B1 B2 F y hy).2
    show 12 ≤ y.2.1 ∧ y.2.1 ≤ 14
    omega
  refine List.pairwise_append.2 ⟨List.pairwise_append.2 ⟨key 3 10 _ hA.1, split_seqRel (h.mok hb) 4 inp, ?_⟩, key 5 16 _ hA.2, ?_⟩
  · intro a ha b hb'
    obtain ⟨a', _, rfl⟩ := List.mem_map.1 ha
    have := hC b hb'
    exact hlt (show 10 < b.round by omega)
  · intro a ha b hb'
    obtain ⟨b', _, rfl⟩ := List.mem_map.1 hb'
    apply hlt
    show a.round < 16
    rcases List.mem_append.1 ha with ha | ha
    · obtain ⟨a', _, rfl⟩ := List.mem_map.1 ha
      show 10 < 16
      omega
    · have := hC a ha
      omega

theorem POK.fp3 (h : POK c M del B1 m0 F) (hb : ∀ x, c.buf2 B1 B2 F x → ¬ c.used F x ∧ ¬ c.buf1 B1 F x) : ∀ a ∈ c.V3 M B1 B2 F, ∀ x,
    rd c.env a.body x ∨ wr c.env a.body x = true → c.used F x ∨ c.buf1 B1 F x ∨ c.buf2 B1 B2 F x := by
  intro a ha x hx
  have hV := V1_fp c (c.inp0 M m0) B1 F
  have sw : ∀ {P Q R : Prop}, P ∨ Q → Q ∨ P ∨ R := fun h => h.elim (fun p => Or.inr (Or.inl p)) Or.inl
  unfold PCtx.V3 at ha
  rcases List.mem_append.1 ha with ha | ha
  · rcases List.mem_append.1 ha with ha | ha
    · obtain ⟨a', ha', rfl⟩ := List.mem_map.1 ha
      exact sw (hV a' (List.mem_filter.1 ha').1 x hx)
    · obtain ⟨y, hy, rfl⟩ := List.mem_map.1 ha
      obtain ⟨b, hb', eb, wb⟩ := wMs_mem c M 4 (Ms_nodup c B1 F) (C3_mem c M B1 B2 F y hy).1
      obtain ⟨f1, f2⟩ := wM_fp (h.mok hb) 4 hb' _ wb x
      have hz : rd c.env (b.body (β := β)) x ∨ wr c.env (b.body (β := β)) x = true ∨ (c.slotB B2 (c.Ms B1 F) b.key ≤ x ∧ x < c.slotB B2 (c.Ms B1 F) b.key + c.gsize b) := by
        rcases hx with hx | hx
        · exact f1 hx
        · exact Or.inr (f2 hx)
      rcases hz with hz | hz | hz
      · exact sw (hV _ (Ms_mem c B1 F hb') x (Or.inl hz))
      · exact sw (hV _ (Ms_mem c B1 F hb') x (Or.inr hz))
      · exact Or.inr (Or.inr ((h.mok hb).slotIn hb' hz))
  · obtain ⟨a', ha', rfl⟩ := List.mem_map.1 ha
    exact sw (hV a' (List.mem_filter.1 ha').1 x hx)

/-- Streams of all contents after splitting. -/
def PCtx.inp1 (c : PCtx β) (M : MData β ι) (B1 B2 : Nat) (m0 : Nat → β) (F : List (FIt ι)) (k : CKey) : Nat → β :=
  strm (m0 0) ((c.C3 M B1 B2 F).flatMap (fun x => x.2.2.innK c.env k))

theorem POK.run3 (h : POK c M del B1 m0 F) (hb : ∀ x, c.buf2 B1 B2 F x → ¬ c.used F x ∧ ¬ c.buf1 B1 F x) :
    (∀ x, ¬ c.buf1 B1 F x → ¬ c.buf2 B1 B2 F x →
      (runOps ((c.V3 M B1 B2 F).map (CAct.op c.env (c.inp1 M B1 B2 m0 F))) (MSt.ofMem m0)).mem x = mrun c.env m0 (F.map (c.fw M del)) x) ∧
    ∀ k, (runOps ((c.V3 M B1 B2 F).map (CAct.op c.env (c.inp1 M B1 B2 m0 F))) (MSt.ofMem m0)).out k =
      (c.C3 M B1 B2 F).flatMap (fun x => x.2.2.outK c.env k) := by
  have hA := wn_walk c.env (c.A1 B1 F) (A1_other c B1 F).1
  have hE := wn_walk c.env (c.E1 B1 F) (A1_other c B1 F).2
  have hmok := h.mok hb
  obtain ⟨s1, s2, s3⟩ := split_walk hmok 4
  have hW : MWalk c.env m0 (c.W3 M B1 B2 F) := by
    unfold PCtx.W3
    rw [mwalk_append, mwalk_append]
    exact ⟨⟨hA.1 _, s1⟩, hE.1 _⟩
  have hflat : ∀ k, (c.W3 M B1 B2 F).flatMap (WIt.outK c.env k) = (c.C3 M B1 B2 F).flatMap (fun x => x.2.2.outK c.env k) ∧
      (c.W3 M B1 B2 F).flatMap (WIt.innK c.env k) = (c.C3 M B1 B2 F).flatMap (fun x => x.2.2.innK c.env k) := by
    intro k
    simp only [PCtx.W3, List.flatMap_append, (hA.2 k).1, (hA.2 k).2, (hE.2 k).1, (hE.2 k).2, List.nil_append, List.append_nil, List.flatMap_map]
    exact ⟨trivial, trivial⟩
  have e3 : (c.V3 M B1 B2 F).map (CAct.op c.env (c.inp1 M B1 B2 m0 F)) = (c.W3 M B1 B2 F).map (fun w => w.body.op c.env (c.inp1 M B1 B2 m0 F)) := by
    simp only [PCtx.V3, PCtx.W3, List.map_append, List.map_map]
    rfl
  obtain ⟨r1, r2, _⟩ := walk_run c.env (c.inp1 M B1 B2 m0 F) (c.W3 M B1 B2 F) (MSt.ofMem m0) hW (by
    intro k i v hv
    rw [(hflat k).2] at hv
    show c.inp1 M B1 B2 m0 F k (0 + i) = v
    rw [Nat.zero_add]
    exact strm_some _ hv)
  rw [e3]
  refine ⟨?_, fun k => ?_⟩
  swap
  · rw [r2, (hflat k).1]
    exact List.nil_append _
  intro x hx1 hx2
  rw [r1]
  show mrun c.env m0 (c.W3 M B1 B2 F) x = _
  -- the combined actions
  have hW1 : MWalk c.env m0 ((c.A1 B1 F).map wn ++ (c.Ms B1 F).map (c.mw M) ++ (c.E1 B1 F).map wn) := by
    rw [mwalk_append, mwalk_append]
    exact ⟨⟨hA.1 _, s2⟩, hE.1 _⟩
  have hgi : ∀ k, ∀ a ∈ c.Ms B1 F, a.key ≠ k → (c.mw M a).innK c.env k = [] := by
    intro k a _ hne
    simp only [PCtx.mw, WIt.innK, CM.body]
    simp [hne]
  obtain ⟨q1, _, _⟩ := walk_run c.env (c.inp0 M m0) _ (MSt.ofMem m0) hW1 (by
    intro k i v hv
    simp only [List.flatMap_append, (hA.2 k).2, (hE.2 k).2, List.nil_append, List.append_nil, List.flatMap_map] at hv
    obtain ⟨f1, f2⟩ := flat_key (Ms_nodup c B1 F) (fun a => (c.mw M a).innK c.env k) k (hgi k)
    by_cases hk : k ∈ (c.Ms B1 F).map CM.key
    · obtain ⟨a, ha, rfl⟩ := List.mem_map.1 hk
      rw [f1 a ha rfl] at hv
      show c.inp0 M m0 a.key (0 + i) = v
      rw [Nat.zero_add]
      apply strm_some
      simp only [PCtx.mw, WIt.innK, CM.body] at hv
      split at hv
      · exact hv
      · cases hv
    · rw [f2 hk] at hv
      cases hv)
  have e1 : (c.A1 B1 F ++ (c.Ms B1 F).map (CM.act 4) ++ c.E1 B1 F).map (CAct.op c.env (c.inp0 M m0)) =
      ((c.A1 B1 F).map wn ++ (c.Ms B1 F).map (c.mw M) ++ (c.E1 B1 F).map wn).map (fun w => w.body.op c.env (c.inp0 M m0)) := by
    simp only [List.map_append, List.map_map]
    rfl
  have hs := (h.run1 (c.inp0 M m0) (MSt.ofMem m0)).2.2 x hx1
  rw [h.run0.1, e1, q1] at hs
  rw [hs]
  show mrun c.env m0 (c.W3 M B1 B2 F) x = mrun c.env m0 _ x
  unfold PCtx.W3
  rw [mrun_append, mrun_append, mrun_append, mrun_append]
  refine (mrun_agree c.env (c.buf2 B1 B2 F) _ ?_ _ _ s3 (hE.1 _)).2 x hx2
  intro w hw y hy
  obtain ⟨a, ha, rfl⟩ := List.mem_map.1 hw
  intro hy2
  rcases V1_fp c (c.inp0 M m0) B1 F a (List.mem_filter.1 ha).1 y hy with h' | h'
  · exact (hb y hy2).2 h'
  · exact (hb y hy2).1 h'

/-- Cells of buffer 3. -/
def PCtx.buf3 (c : PCtx β) (M : MData β ι) (B1 B2 B3 : Nat) (F : List (FIt ι)) (x : Nat) : Prop :=
  B3 ≤ x ∧ x < B3 + (combGo c.env [] 0 (c.V3 M B1 B2 F)).2 * c.es

theorem sortOf_ord {me : Nat} {l : List (CAct β)} {S : List (CAct β × Nat)} (hS : SortOf (cmp2phase me) l S) :
    S.Pairwise (fun a b => a.1.round ≤ b.1.round ∧ (a.1.round = b.1.round → a.1.isOth = true → b.1.isOth = true → a.2 ≤ b.2)) := by
  refine hS.2.imp ?_
  intro a b hab
  refine ⟨cmp2phase_round hab, ?_⟩
  intro hr ha hb
  have ka : CBody.kind a.1.body = .other := by
    unfold CAct.isOth at ha
    cases h : a.1.body with
    | comm => rw [h] at ha; cases ha
    | other => rfl
  have kb : CBody.kind b.1.body = .other := by
    unfold CAct.isOth at hb
    cases h : b.1.body with
    | comm => rw [h] at hb; cases hb
    | other => rfl
  unfold cmp2phase CAct.toAct at hab
  simp only [ka, kb, hr, ne_eq, not_true_eq_false, if_false, phase, peer] at hab
  simp at hab
  omega

/-- Effect of the actions of one process after all transformations. -/
theorem POK.run5 (h : POK c M del B1 m0 F) (hb : ∀ x, c.buf2 B1 B2 F x → ¬ c.used F x ∧ ¬ c.buf1 B1 F x)
    (hb3 : ∀ x, c.buf3 M B1 B2 B3 F x → ¬ c.used F x ∧ ¬ c.buf1 B1 F x ∧ ¬ c.buf2 B1 B2 F x)
    {me : Nat} {S : List (CAct β × Nat)} (hS : SortOf (cmp2phase me) (c.comb1 B3 (c.V3 M B1 B2 F)) S) :
    (∀ x, ¬ c.buf1 B1 F x → ¬ c.buf2 B1 B2 F x → ¬ c.buf3 M B1 B2 B3 F x →
      (runOps ((S.map (·.1)).map (CAct.op c.env (c.inp1 M B1 B2 m0 F))) (MSt.ofMem m0)).mem x = mrun c.env m0 (F.map (c.fw M del)) x) ∧
    ∀ k, (runOps ((S.map (·.1)).map (CAct.op c.env (c.inp1 M B1 B2 m0 F))) (MSt.ofMem m0)).out k =
      (c.C3 M B1 B2 F).flatMap (fun x => x.2.2.outK c.env k) := by
  obtain ⟨r1, r2⟩ := h.run3 hb
  obtain ⟨c1, _, c3⟩ := comb_stable c (c.inp1 M B1 B2 m0 F) B3 (c.V3 M B1 B2 F) S (h.seqRel3 hb _) (by
    intro a ha x h1 h2
    have hx := hb3 x ⟨h1, h2⟩
    have hf := h.fp3 hb a ha x
    unfold CAct.op
    rw [rd_op, wr_op]
    have hno : ¬ (rd c.env a.body x ∨ wr c.env a.body x = true) := by
      intro hh
      rcases hf hh with h' | h' | h'
      · exact hx.1 h'
      · exact hx.2.1 h'
      · exact hx.2.2 h'
    rw [not_or] at hno
    exact ⟨hno.1, by simpa using hno.2⟩) hS.1 (sortOf_ord hS) (MSt.ofMem m0)
  refine ⟨fun x hx1 hx2 hx3 => ?_, fun k => ?_⟩
  · rw [← c3 x hx3]
    exact r1 x hx1 hx2
  · rw [← c1]
    exact r2 k

end Laik.Mp
