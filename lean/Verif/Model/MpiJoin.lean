import Verif.Model.MpiSetup
/-!
# Contents of all messages of a switch over the MPI backend
-/

namespace Laik.Mp

open Laik.DE

variable {β : Type}

/-- What is known about a switch: operations `O p` of each process, contents of
memory and buffer for combining. -/
structure SwOK (s : MSetup β) (F T : List TR) (gs : Nat → List (List Nat)) (O : Nat → List ROp) (B1 : Nat → Nat) : Prop where
  ok : ∀ p, OpOK (s.ctx p (gs p)) F T (O p)
  ops : OpsOK O
  gnodup : ∀ p g, (transGroup s.n (gs p) g).Nodup
  cov : ∀ p, ∀ f ∈ (s.ctx p (gs p)).fits (O p), ∀ i o op, f.key = .gred i o op → use3 (transGroup s.n (gs p) i) = true → transGroup s.n (gs p) o ≠ []
  sep : ∀ p, (s.ctx p (gs p)).SepB F T
  red : ∀ a b : List β, a.length = s.es → b.length = s.es → (s.red a b).length = s.es
  neutral : s.neutral.length = s.es
  buf : ∀ p x, (s.ctx p (gs p)).InUse F T x → ¬ (s.ctx p (gs p)).buf1 (B1 p) ((s.ctx p (gs p)).fits (O p)) x

def MSetup.fs (s : MSetup β) (gs : Nat → List (List Nat)) (O : Nat → List ROp) (p : Nat) : List (FIt Int) := (s.ctx p (gs p)).fits (O p)

/-- Element of process `q` at index `i` before the switch. -/
def MSetup.elem (s : MSetup β) (F : List TR) (m0 : Nat → Nat → β) (q : Nat) (i : Int) : List β :=
  readMem (m0 q) ((s.ctx q []).cells.src (noAt F q i).2 i) s.es

/-- Result of a collective at process `p`. -/
def MSetup.coll (s : MSetup β) (F : List TR) (gs : Nat → List (List Nat)) (O : Nat → List ROp) (m0 : Nat → Nat → β)
    (cf : Nat → (Nat → List β) → Nat → List β) (p : Nat) (r : Int) (op : Nat) : List β :=
  cf (collNo r op) (fun q => (ixOf (s.fs gs O q) (.red r op)).flatMap (s.elem F m0 q)) p

/-- Element got by process `p`. -/
def MSetup.del (s : MSetup β) (F : List TR) (gs : Nat → List (List Nat)) (O : Nat → List ROp) (m0 : Nat → Nat → β)
    (cf : Nat → (Nat → List β) → Nat → List β) (p : Nat) (k : CKey) (i : Int) : List β :=
  match k with
  | .recv q => s.elem F m0 q i
  | .red r op => slice s.es (s.coll F gs O m0 cf p r op) ((ixOf (s.fs gs O p) k).idxOf i)
  | _ => []

def MSetup.data (s : MSetup β) (F : List TR) (gs : Nat → List (List Nat)) (O : Nat → List ROp) (m0 : Nat → Nat → β)
    (cf : Nat → (Nat → List β) → Nat → List β) (p : Nat) : MData β Int :=
  ⟨ixOf (s.fs gs O p), s.elem F m0, fun k => (ixOf (s.fs gs O p) k).flatMap (s.del F gs O m0 cf p k)⟩

/-! ### Slices -/

theorem slice_length {es : Nat} {vs : List β} {m j : Nat} (h : vs.length = m * es) (hj : j < m) : (slice es vs j).length = es := by
  unfold slice
  rw [List.length_take, List.length_drop, h]
  have := Nat.mul_le_mul_right es hj
  rw [Nat.succ_mul] at this
  omega

theorem slice_cons {es : Nat} (v vs : List β) (h : v.length = es) (j : Nat) : slice es (v ++ vs) (j + 1) = slice es vs j := by
  unfold slice
  rw [Nat.succ_mul, Nat.add_comm, ← List.drop_drop, ← h, List.drop_left]

theorem slice_zero {es : Nat} (v vs : List β) (h : v.length = es) : slice es (v ++ vs) 0 = v := by
  unfold slice
  rw [Nat.zero_mul, List.drop_zero, ← h, List.take_left]

theorem slice_flatMap {ι : Type} {es : Nat} (f : ι → List β) (hf : ∀ i, (f i).length = es) (I : List ι) : ∀ (j : Nat) (i : ι), I[j]? = some i →
    slice es (I.flatMap f) j = f i := by
  induction I with
  | nil => intro j i h; cases h
  | cons a I ih =>
    intro j i h
    rw [List.flatMap_cons]
    cases j with
    | zero => cases h; exact slice_zero _ _ (hf _)
    | succ j => rw [slice_cons _ _ (hf a)]; exact ih j i h

theorem range_slices {es : Nat} (m : Nat) : ∀ vs : List β, vs.length = m * es → (List.range m).flatMap (slice es vs) = vs := by
  induction m with
  | zero => intro vs h; rw [Nat.zero_mul] at h; rw [List.eq_nil_of_length_eq_zero h]; rfl
  | succ m ih =>
    intro vs h
    rw [Nat.succ_mul] at h
    rw [List.range_succ_eq_map, List.flatMap_cons, List.flatMap_map]
    have e1 : vs = vs.take es ++ vs.drop es := (List.take_append_drop _ _).symm
    have hl : (vs.take es).length = es := by rw [List.length_take]; omega
    have e2 : ∀ j, slice es vs (j + 1) = slice es (vs.drop es) j := by
      intro j
      conv => lhs; rw [e1]
      exact slice_cons _ _ hl j
    have e3 : slice es vs 0 = vs.take es := by
      conv => lhs; rw [e1]
      exact slice_zero _ _ hl
    rw [e3]
    have : (fun a => slice es vs (Nat.succ a)) = slice es (vs.drop es) := funext e2
    rw [this, ih _ (by rw [List.length_drop]; omega)]
    exact e1.symm

theorem flatMap_slices {ι : Type} [BEq ι] [LawfulBEq ι] {es : Nat} {I : List ι} (hI : I.Nodup) {vs : List β} (h : vs.length = I.length * es) :
    I.flatMap (fun i => slice es vs (I.idxOf i)) = vs := by
  have e : I.map (fun i => I.idxOf i) = List.range I.length := by
    apply List.ext_getElem (by simp)
    intro j h1 h2
    rw [List.getElem_map, List.getElem_range, hI.idxOf_getElem]
  rw [show I.flatMap (fun i => slice es vs (I.idxOf i)) = (I.map (fun i => I.idxOf i)).flatMap (slice es vs) by rw [List.flatMap_map], e]
  exact range_slices _ _ h

/-! ### Indexes of collectives -/

theorem fit_red {c : PCtx β} {o : ROp} {f : FIt Int} (h : c.fit o = some f) (hk : ∀ q, f.key ≠ .send q ∧ f.key ≠ .recv q) :
    ∃ x y ins outs a b, o = .red x y ins outs a b ∧ f.key = c.redK ins outs ∧ f.idx = idxs x y := by
  cases o with
  | loc => cases h
  | send x y no t => cases h; exact absurd rfl (hk t).1
  | recv x y no q => cases h; exact absurd rfl (hk q).2
  | red x y ins outs a b => cases h; exact ⟨x, y, ins, outs, a, b, rfl, rfl, rfl⟩

theorem redIx_nodup {c : PCtx β} {F T : List TR} {O : List ROp} (h : OpOK c F T O) (r : Int) (op : Nat) : (ixOf (c.fits O) (.red r op)).Nodup := by
  unfold ixOf
  rw [List.nodup_flatMap]
  constructor
  · intro f hf
    obtain ⟨o, _, e⟩ := OpOK.mem_fits.1 (List.mem_filter.1 hf).1
    have hk : f.key = .red r op := by simpa using (List.mem_filter.1 hf).2
    obtain ⟨x, y, _, _, _, _, _, _, e⟩ := fit_red e (fun q => by rw [hk]; exact ⟨fun h => (by cases h), fun h => (by cases h)⟩)
    rw [e]
    exact idxs_nodup x y
  · have hsym : ∀ {a b : FIt Int}, (isRedK a.key = true → isRedK b.key = true → List.Disjoint a.idx b.idx) →
        (isRedK b.key = true → isRedK a.key = true → List.Disjoint b.idx a.idx) := fun h h1 h2 x hx hy => h h2 h1 hy hx
    have hp : (c.fits O).Pairwise (fun a b => isRedK a.key = true → isRedK b.key = true → List.Disjoint a.idx b.idx) := by
      unfold PCtx.fits
      rw [(rOrder_perm O c).pairwise_iff hsym, List.pairwise_filterMap]
      refine h.sep.imp_of_mem ?_
      intro o o' ho ho' hn f e f' e' hk hk'
      have hne : ∀ k : CKey, isRedK k = true → ∀ q, k ≠ .send q ∧ k ≠ .recv q := by
        intro k hk q
        cases k with
        | red => exact ⟨fun h => (by cases h), fun h => (by cases h)⟩
        | send => cases hk
        | recv => cases hk
        | gred => cases hk
      obtain ⟨x, y, _, _, _, _, rfl, _, e1⟩ := fit_red e (hne _ hk)
      obtain ⟨x', y', _, _, _, _, rfl, _, e2⟩ := fit_red e' (hne _ hk')
      rcases hn with hn | hn
      · intro i h1 h2
        rw [e1, mem_idxs] at h1
        rw [e2, mem_idxs] at h2
        exact hn i (decide_eq_true h1) (decide_eq_true h2)
      · cases hn.1
    refine (hp.filter (fun f => decide (f.key = .red r op))).imp_of_mem ?_
    intro a b ha hb hab
    have ka : a.key = .red r op := by simpa using (List.mem_filter.1 ha).2
    have kb : b.key = .red r op := by simpa using (List.mem_filter.1 hb).2
    exact hab (by rw [ka]; rfl) (by rw [kb]; rfl)

variable {s : MSetup β} {F T : List TR} {gs : Nat → List (List Nat)} {O : Nat → List ROp} {m0 : Nat → Nat → β} {B1 : Nat → Nat}
  {cf : Nat → (Nat → List β) → Nat → List β}

theorem SwOK.out (h : SwOK s F T gs O B1) {p : Nat} (hp : s.n ≤ p) : O p = [] := by
  rw [List.eq_nil_iff_forall_not_mem]
  intro o ho
  have : p < s.n := (h.ok p).me o ho
  omega

theorem elem_length (s : MSetup β) (F : List TR) (m0 : Nat → Nat → β) (q : Nat) (i : Int) : (s.elem F m0 q i).length = s.es := by
  unfold MSetup.elem
  rw [readMem_length]

theorem SwOK.groups (h : SwOK s F T gs O B1) (p : Nat) : ∀ o ∈ O p, GroupsOK (s.ctx p (gs p)) o := fun o ho => (h.ok p).groups o ho

/-- Collectives are the same at all processes. -/
theorem SwOK.reds (h : SwOK s F T gs O B1) {p q : Nat} (hp : p < s.n) (hq : q < s.n) :
    ((s.fs gs O p).filter (fun f => isRedK f.key)).map (fun f => (f.key, f.idx)) =
      ((s.fs gs O q).filter (fun f => isRedK f.key)).map (fun f => (f.key, f.idx)) := by
  unfold MSetup.fs
  rw [fits_reds, fits_reds]
  show List.map (fun r => (collKey s.n s.redOp r, idxs r.x r.y)) _ = List.map (fun r => (collKey s.n s.redOp r, idxs r.x r.y)) _
  congr 1
  have key : ∀ a b, b < s.n → ((O a).filterMap rReds).filter (isColl s.useReduce s.n) =
      (((O a).filterMap rReds).filter (fun r => r.involves b)).filter (isColl s.useReduce s.n) := by
    intro a b hb
    rw [List.filter_filter]
    apply List.filter_congr
    intro r hr
    cases hc : isColl s.useReduce s.n r with
    | false => rfl
    | true =>
      obtain ⟨o, ho, e⟩ := List.mem_filterMap.1 hr
      cases o with
      | loc => cases e
      | send => cases e
      | recv => cases e
      | red x y ins outs u v =>
        cases e
        unfold isColl at hc
        rw [decide_eq_true_eq] at hc
        have := ((h.ok a).owners ho rfl).2.2.1 hc.2.1
        have hm : b ∈ ins := by rw [this]; exact List.mem_range.2 hb
        simp [RedSpec.involves, hm]
  have e := h.ops.reds p q
  show List.filter (isColl s.useReduce s.n) _ = List.filter (isColl s.useReduce s.n) _
  rw [key p q hq, key q p hp, e]

theorem SwOK.redIx (h : SwOK s F T gs O B1) {p q : Nat} (hp : p < s.n) (hq : q < s.n) (r : Int) (op : Nat) :
    ixOf (s.fs gs O p) (.red r op) = ixOf (s.fs gs O q) (.red r op) := by
  have := ixOf_map _ _ (h.reds hp hq) (.red r op)
  rwa [ixOf_filter _ isRedK rfl, ixOf_filter _ isRedK rfl] at this

/-- Result of a collective: combination of the elements of all processes. -/
theorem SwOK.coll_val (h : SwOK s F T gs O B1) (hcf : CollOK s cf) {p : Nat} (hp : p < s.n) {r : Int} (hr : r = p ∨ r = -1) :
    (s.coll F gs O m0 cf p r s.redOp).length = (ixOf (s.fs gs O p) (.red r s.redOp)).length * s.es ∧
    ∀ i ∈ ixOf (s.fs gs O p) (.red r s.redOp), Comb s.red ((List.range s.n).map (fun q => s.elem F m0 q i)) (s.del F gs O m0 cf p (.red r s.redOp) i) := by
  have hv := hcf.val r p (fun q => (ixOf (s.fs gs O q) (.red r s.redOp)).flatMap (s.elem F m0 q)) (ixOf (s.fs gs O p) (.red r s.redOp)).length hp hr
    (fun q hq => by
      rw [h.redIx hp hq]
      exact flatMap_length_const _ (fun i _ => elem_length s F m0 q i))
  refine ⟨hv.1, fun i hi => ?_⟩
  have hj := List.idxOf_lt_length_of_mem hi
  have := hv.2 _ hj
  refine Eq.mp ?_ this
  congr 1
  apply List.map_congr_left
  intro q hq
  rw [← h.redIx hp (List.mem_range.1 hq)]
  apply slice_flatMap _ (fun i => elem_length s F m0 q i)
  rw [List.getElem?_eq_getElem hj, List.getElem_idxOf]

theorem fit_gred {c : PCtx β} {O : List ROp} {f : FIt Int} (hf : f ∈ c.fits O) (hk : notGred f.key = false) :
    ∃ x y ins outs a b, .red x y ins outs a b ∈ O ∧ f.key = .gred (groupId c.n c.gs ins) (groupId c.n c.gs outs) c.redOp ∧ f.idx = idxs x y := by
  obtain ⟨o, ho, e⟩ := OpOK.mem_fits.1 hf
  obtain ⟨x, y, ins, outs, a, b, rfl, ek, ei⟩ := fit_red e (fun q => ⟨fun h => (by rw [h] at hk; cases hk), fun h => (by rw [h] at hk; cases hk)⟩)
  refine ⟨x, y, ins, outs, a, b, ho, ?_, ei⟩
  rcases redK_cases c ins outs with ⟨_, e1⟩ | ⟨_, e1⟩ | ⟨_, e1⟩
  · rw [ek, e1] at hk; cases hk
  · rw [ek, e1] at hk; cases hk
  · rw [ek, e1]

theorem fit_coll {c : PCtx β} {O : List ROp} {f : FIt Int} (hf : f ∈ c.fits O) {r : Int} {op : Nat} (hk : f.key = .red r op) : op = c.redOp ∧ -1 ≤ r := by
  obtain ⟨o, ho, e⟩ := OpOK.mem_fits.1 hf
  obtain ⟨x, y, ins, outs, a, b, rfl, ek, ei⟩ := fit_red e (fun q => ⟨fun h => (by rw [h] at hk; cases hk), fun h => (by rw [h] at hk; cases hk)⟩)
  rw [ek] at hk
  rcases redK_cases c ins outs with ⟨_, e1⟩ | ⟨_, e1⟩ | ⟨_, e1⟩
  · rw [e1] at hk; cases hk; exact ⟨rfl, by omega⟩
  · rw [e1] at hk; cases hk; exact ⟨rfl, by omega⟩
  · rw [e1] at hk; cases hk

theorem mem_ixOf {F : List (FIt Int)} {f : FIt Int} (hf : f ∈ F) {i : Int} (hi : i ∈ f.idx) : i ∈ ixOf F f.key := by
  unfold ixOf
  exact List.mem_flatMap.2 ⟨f, List.mem_filter.2 ⟨hf, by simp⟩, hi⟩

theorem SwOK.pok (h : SwOK s F T gs O B1) (hcf : CollOK s cf) (p : Nat) :
    POK (s.ctx p (gs p)) (s.data F gs O m0 cf p) (s.del F gs O m0 cf p) (B1 p) (m0 p) (s.fs gs O p) where
  elem := ⟨fun q i => elem_length s F m0 q i, h.red, h.neutral⟩
  ix := fun k => rfl
  dat := fun k _ => rfl
  pos := (h.ok p).pos
  indep := (h.ok p).indep (h.sep p)
  pay := by
    intro f hf hin
    obtain ⟨o, ho, e⟩ := OpOK.mem_fits.1 hf
    apply holds_read
    intro j i hj
    obtain ⟨_, _, e3⟩ := (h.ok p).src ho e hin j i hj
    rw [e3]
    rfl
  del := by
    intro f hf hout hng i hi
    cases hk : f.key with
    | gred => rw [hk] at hng; cases hng
    | send => rw [hk] at hout; cases hout
    | recv q => exact elem_length s F m0 q i
    | red r op =>
      obtain ⟨hop, _⟩ := fit_coll hf hk
      have hop : op = s.redOp := hop
      subst hop
      have hp : p < s.n := by
        obtain ⟨o, ho, _⟩ := OpOK.mem_fits.1 hf
        exact (h.ok p).me o ho
      have hr : r = p ∨ r = -1 := by
        rw [hk] at hout
        simpa [CEnv.isOut, PCtx.env, MSetup.ctx] using hout
      have hi' := mem_ixOf hf hi
      rw [hk] at hi'
      exact slice_length (h.coll_val (m0 := m0) hcf hp hr).1 (List.idxOf_lt_length_of_mem hi')
  outs := fun f hf i o op hk hu => h.cov p f hf i o op hk hu
  buf := by
    intro f hf x h1 h2
    have hb : (s.ctx p (gs p)).buf1 (B1 p) (s.fs gs O p) x := ⟨h1, h2⟩
    constructor
    · intro hr
      exact h.buf p x ((h.ok p).used ⟨f, hf, Or.inl hr⟩) hb
    · rw [Bool.eq_false_iff]
      intro hr
      exact h.buf p x ((h.ok p).used ⟨f, hf, Or.inr hr⟩) hb

theorem SwOK.gok (h : SwOK s F T gs O B1) (hcf : CollOK s cf) :
    GOK s.n cf (fun p => s.ctx p (gs p)) (s.data F gs O m0 cf) (s.del F gs O m0 cf) B1 m0 (s.fs gs O) where
  me := fun _ => rfl
  same := fun _ _ => ⟨rfl, rfl, rfl⟩
  elem := fun _ _ => rfl
  groups := h.gnodup
  pok := h.pok hcf
  out := by
    intro p hp
    unfold MSetup.fs
    rw [h.out hp]
    rfl
  nself := by
    intro p f hf
    obtain ⟨o, ho, e⟩ := OpOK.mem_fits.1 hf
    have hn := h.ops.nself p o ho
    cases o with
    | loc => cases e
    | send x y no t =>
      cases e
      refine ⟨fun hk => hn.1 ?_, fun hk => (by cases hk)⟩
      cases hk
      rfl
    | recv x y no t =>
      cases e
      refine ⟨fun hk => (by cases hk), fun hk => hn.2 ?_⟩
      cases hk
      rfl
    | red x y ins outs a b =>
      cases e
      exact ⟨(redK_ne _ _ _).1 p, (redK_ne _ _ _).2 p⟩
  root := fun p f hf r op hk => (fit_coll hf hk).2
  sr := by
    intro p q hpq
    unfold MSetup.fs
    rw [ixOf_sends, ixOf_recvs, h.ops.msgs p q hpq]
  dat := fun p q => rfl
  inj := by
    intro p f hf g hg h1 h2 he
    obtain ⟨x, y, ins, outs, a, b, ho, e1, _⟩ := fit_gred hf h1
    obtain ⟨x', y', ins', outs', a', b', ho', e2, _⟩ := fit_gred hg h2
    obtain ⟨g1, g2⟩ := h.groups p _ ho _ _ _ _ _ _ rfl
    obtain ⟨g3, g4⟩ := h.groups p _ ho' _ _ _ _ _ _ rfl
    rw [e1, e2] at he ⊢
    simp only [PCtx.grp, g1, g2, g3, g4, Prod.mk.injEq] at he
    rw [he.1, he.2.1]
  greds := by
    intro p q hpq
    unfold MSetup.fs
    rw [fits_greds _ _ _ (h.groups p), fits_greds _ _ _ (h.groups q)]
    show List.map (fun r => ((r.ins, r.outs, s.redOp), idxs r.x r.y)) (List.filter (fun r => r.involves q && !isColl s.useReduce s.n r) _) =
      List.map (fun r => ((r.ins, r.outs, s.redOp), idxs r.x r.y)) (List.filter (fun r => r.involves p && !isColl s.useReduce s.n r) _)
    congr 1
    have e := congrArg (List.filter (fun r => !isColl s.useReduce s.n r)) (h.ops.reds p q)
    rw [List.filter_filter, List.filter_filter] at e
    simpa only [Bool.and_comm] using e
  reds := fun p hp q hq => h.reds hp hq
  cfloc := hcf.loc
  cdat := by
    intro p f hf r op hk hr
    obtain ⟨hop, _⟩ := fit_coll hf hk
    have hop : op = s.redOp := hop
    subst hop
    have hp : p < s.n := by
      obtain ⟨o, ho, _⟩ := OpOK.mem_fits.1 hf
      exact (h.ok p).me o ho
    rw [hk]
    exact flatMap_slices (redIx_nodup (h.ok p) r s.redOp) (h.coll_val (m0 := m0) hcf hp hr).1

end Laik.Mp
