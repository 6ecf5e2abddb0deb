import Verif.Model.SingleLemmas
/-!
# C50: a 1d switch with the backend for one process keeps all values
-/

namespace Laik.Sgl

open DE

variable {V : Type}

/-- After the switch, every index in both source and target has in the target
mapping the value it had in the source mapping. -/
def Keeps (c : SCtx) (F T : List TR) (m m' : Int → V) : Prop :=
  ∀ r ∈ F, ∀ r' ∈ T, ∀ i, r.has i → r'.has i → m' (c.cells.dst r'.mapNo i) = m (c.cells.src r.mapNo i)

/-- An index has one source cell. -/
theorem src_unique {F T : List TR} (h : TransOK 1 F T) {r q : TR} (hr : r ∈ F) (hq : q ∈ F) {i : Int} (hri : r.has i) (hqi : q.has i) :
    r.mapNo = q.mapNo := by
  have t0 : r.task = 0 := by have := h.goodF.task r hr; omega
  have t0' : q.task = 0 := by have := h.goodF.task q hq; omega
  rw [← noAt_mapNo h.goodF hr hri, ← noAt_mapNo h.goodF hq hqi, t0, t0']

/-- Source value of an index. -/
theorem exists_val {F T : List TR} (h : TransOK 1 F T) (c : SCtx) (m : Int → V) :
    ∃ v : Int → V, ∀ r ∈ F, ∀ i, r.has i → m (c.cells.src r.mapNo i) = v i := by
  classical
  refine ⟨fun i => if e : ∃ r ∈ F, r.has i then m (c.cells.src (Classical.choose e).mapNo i) else m 0, ?_⟩
  intro r hr i hri
  have e : ∃ r ∈ F, r.has i := ⟨r, hr, hri⟩
  simp only [dif_pos e]
  obtain ⟨h1, h2⟩ := Classical.choose_spec e
  rw [src_unique h hr h1 hri h2]

/-- If the backend leaves the values of the source, the switch keeps values. -/
theorem keeps_of_exec {c : SCtx} {F T : List TR} (ok : SOK c F T) (h : TransOK 1 F T) {redOp : Nat} {F' T' : List TR} {st : TSt}
    (hc : Calculated 1 redOp F T 0 F' T' st) {m m1 : Int → V} (he : redsS c (st.res 1 0) m = .ok m1)
    (hv : ∀ r ∈ F, ∀ i, r.has i → m1 (c.cells.src r.mapNo i) = m (c.cells.src r.mapNo i)) :
    ∃ m', doTransS c (st.res 1 0) m = .ok m' ∧ Keeps c F T m m' := by
  have hone := one_of_calculated h hc
  obtain ⟨v, hval⟩ := exists_val h c m
  obtain ⟨m2, e1, e2⟩ := copies_value ok h hc (m1 := m1) (v := v) (fun r hr i hri _ => by rw [hv r hr i hri, hval r hr i hri])
  refine ⟨m2, ?_, ?_⟩
  · rw [doTrans_eq hone, singleExec_eq hone, he]
    exact e1
  · intro r hr r' hr' i hri hri'
    rw [e2 r' hr' i hri' ⟨r, hr, hri⟩, hval r hr i hri]

/-- C50: with one process, a switch to a partitioning without new indices is done
without failure and keeps all values, whatever mappings there are and whether
memory is reused.  Missing: new indices, see `C50_new_separate_partial`,
`C50_new_reused_partial` and the failures `C50_new_*`. -/
theorem C50_no_new_partial {c : SCtx} {F T : List TR} (ok : SOK c F T) (h : TransOK 1 F T) {redOp : Nat} {F' T' : List TR} {st : TSt}
    (hc : Calculated 1 redOp F T 0 F' T' st) (hn : ∀ r ∈ T, ∀ i, r.has i → ∃ r' ∈ F, r'.has i) (m : Int → V) :
    ∃ m', doTransS c (st.res 1 0) m = .ok m' ∧ Keeps c F T m m' := by
  have hone := one_of_calculated h hc
  refine keeps_of_exec ok h hc (m1 := m) ?_ (fun _ _ _ _ => rfl)
  unfold redsS
  rw [if_neg]
  rw [Bool.not_eq_true, List.any_eq_false]
  intro o ho
  cases hone o ho with
  | loc => simp [isRedOp]
  | red x y a b hxy hr =>
    obtain ⟨r, hr, hri⟩ := hr
    obtain ⟨h1, h2⟩ := hri x (by omega) (by omega)
    obtain ⟨r', hr', hri'⟩ := hn r hr x h1
    exact absurd hri' (h2 r' hr')

/-- A reduction stays in the mapping of the target. -/
theorem red_size {c : SCtx} {F T : List TR} (ok : SOK c F T) {f t : SMap} {tb : Int} (hf : c.fl = [f]) (ht : c.tl = [t]) (htb : t.base = some tb)
    {x y : Int} {a b : Option (Int × Int)} (h : One F T (.red x y [] [0] a b)) :
    x < y ∧ y - x ≤ t.hi - t.lo ∧ okRange c.blocks tb (y - x) = true := by
  cases h with
  | red _ _ _ _ hxy hr =>
    obtain ⟨r, hr, hri⟩ := hr
    obtain ⟨p1, t', b', e1, e2, e3, e4, k, hk, k1, k2⟩ := ok.mapT r hr
    rw [ht] at e1
    have : t' = t := by
      match r.mapNo.toNat, e1 with
      | 0, e => simpa using e.symm
      | n + 1, e => simp at e
    subst this
    rw [htb] at e2
    cases e2
    have h1 := (hri x (by omega) (by omega)).1
    have h2 := (hri (y - 1) (by omega) (by omega)).1
    unfold TR.has at h1 h2
    exact ⟨hxy, by omega, okRange_sub hk (by omega) (by omega)⟩

/-- Result of the reductions if source and target are in different memory blocks. -/
theorem redLoop_separate {c : SCtx} {F T : List TR} (ok : SOK c F T) {f t : SMap} {fb tb : Int} (hf : c.fl = [f]) (ht : c.tl = [t])
    (hfb : f.base = some fb) (htb : t.base = some tb)
    (hsep : ∀ n, 0 < n → okRange c.blocks fb n = true → n ≤ t.hi - t.lo → fb + n ≤ tb ∨ tb + n ≤ fb)
    (ops : List ROp) (hone : ∀ o ∈ ops, One F T o) (m : Int → V) :
    ((∃ m1, redLoopS c.blocks f t ops m = .ok m1) ↔
      ∀ x y ins outs a b, ROp.red x y ins outs a b ∈ ops → okRange c.blocks fb (y - x) = true) ∧
    ∀ m1, redLoopS c.blocks f t ops m = .ok m1 → ∀ a, ¬ (tb ≤ a ∧ a < tb + (t.hi - t.lo)) → m1 a = m a := by
  induction ops generalizing m with
  | nil =>
    refine ⟨⟨fun _ => (by intro x y ins outs a b h; cases h), fun _ => ⟨m, rfl⟩⟩, ?_⟩
    intro m1 e a _
    cases e
    rfl
  | cons o ops ih =>
    replace ih := fun m => ih (fun o ho => hone o (List.mem_cons_of_mem _ ho)) m
    have ho := hone o List.mem_cons_self
    cases ho with
    | loc x y a b hxy hl =>
      obtain ⟨i1, i2⟩ := ih m
      refine ⟨?_, i2⟩
      show (∃ m1, redLoopS c.blocks f t ops m = .ok m1) ↔ _
      rw [i1]
      constructor
      · intro h x' y' ins outs a' b' hm
        rcases List.mem_cons.1 hm with e | hm
        · cases e
        · exact h x' y' ins outs a' b' hm
      · intro h x' y' ins outs a' b' hm
        exact h x' y' ins outs a' b' (List.mem_cons_of_mem _ hm)
    | red x y a b hxy hr =>
      obtain ⟨s1, s2, s3⟩ := red_size ok hf ht htb (One.red x y a b hxy hr)
      have e0 : ∀ m', memcpyS c.blocks m tb fb (y - x) = .ok m' →
          redLoopS c.blocks f t (ROp.red x y [] [0] a b :: ops) m = redLoopS c.blocks f t ops m' := by
        intro m' e
        conv => lhs; unfold redLoopS
        rw [hfb, htb]
        simp only []
        rw [if_neg (by simp), if_neg (by simp [hxy]), e]
      have e0' : memcpyS c.blocks m tb fb (y - x) = .error .oob →
          redLoopS c.blocks f t (ROp.red x y [] [0] a b :: ops) m = .error .oob := by
        intro e
        conv => lhs; unfold redLoopS
        rw [hfb, htb]
        simp only []
        rw [if_neg (by simp), if_neg (by simp [hxy]), e]
      by_cases g : okRange c.blocks fb (y - x) = true
      · have e1 : memcpyS c.blocks m tb fb (y - x) =
            .ok (fun a => if tb ≤ a ∧ a < tb + (y - x) then m (fb + (a - tb)) else m a) := by
          unfold memcpyS
          rw [if_neg (by omega), g, s3]
          have := hsep (y - x) (by omega) g s2
          simp only [Bool.and_self, Bool.not_true, Bool.false_eq_true, if_false]
          rw [if_neg (by omega)]
        rw [e0 _ e1]
        obtain ⟨i1, i2⟩ := ih (fun a => if tb ≤ a ∧ a < tb + (y - x) then m (fb + (a - tb)) else m a)
        refine ⟨?_, ?_⟩
        · rw [i1]
          constructor
          · intro h x' y' ins outs a' b' hm
            rcases List.mem_cons.1 hm with e | hm
            · cases e; exact g
            · exact h x' y' ins outs a' b' hm
          · intro h x' y' ins outs a' b' hm
            exact h x' y' ins outs a' b' (List.mem_cons_of_mem _ hm)
        · intro m1 e z hz
          rw [i2 m1 e z hz, if_neg (by omega)]
      · have e1 : memcpyS c.blocks m tb fb (y - x) = .error .oob := by
          unfold memcpyS
          rw [if_neg (by omega), if_pos (by simp [g])]
        rw [e0' e1]
        refine ⟨⟨?_, ?_⟩, ?_⟩
        · rintro ⟨m1, e⟩; cases e
        · intro h; exact absurd (h x y _ _ a b List.mem_cons_self) g
        · intro m1 e; cases e

/-- C50: with new indices, one mapping with memory in both partitionings and
separate memory blocks, the switch is done without failure if and only if from the
start of the source mapping as many elements are readable as any piece of new
indices has.  It keeps all values then.  Missing: values of new indices are not
specified (parts of the source from its start, or left as they are). -/
theorem C50_new_separate_partial {c : SCtx} {F T : List TR} (ok : SOK c F T) (h : TransOK 1 F T) {redOp : Nat} {F' T' : List TR} {st : TSt}
    (hc : Calculated 1 redOp F T 0 F' T' st) {f t : SMap} {fb tb : Int} (hf : c.fl = [f]) (ht : c.tl = [t])
    (hfb : f.base = some fb) (htb : t.base = some tb)
    (hsep : ∀ n, 0 < n → okRange c.blocks fb n = true → n ≤ t.hi - t.lo → fb + n ≤ tb ∨ tb + n ≤ fb)
    (hdis : fb + (f.hi - f.lo) ≤ tb ∨ tb + (t.hi - t.lo) ≤ fb) (m : Int → V) :
    ((∃ m', doTransS c (st.res 1 0) m = .ok m') ↔
      ∀ x y ins outs a b, ROp.red x y ins outs a b ∈ st.res 1 0 → okRange c.blocks fb (y - x) = true) ∧
    ∀ m', doTransS c (st.res 1 0) m = .ok m' → Keeps c F T m m' := by
  have hone := one_of_calculated h hc
  obtain ⟨r1, r2⟩ := redLoop_separate ok hf ht hfb htb hsep ((st.res 1 0).filter isRedOp)
    (fun o ho => hone o (List.mem_filter.1 ho).1) m
  have er : ∀ m1, redsS c (st.res 1 0) m = .ok m1 ↔ redLoopS c.blocks f t ((st.res 1 0).filter isRedOp) m = .ok m1 := by
    intro m1
    unfold redsS
    rw [hf, ht]
    split
    · rfl
    · rename_i g
      rw [List.filter_eq_nil_iff.2]
      · rfl
      · intro o ho
        rw [Bool.not_eq_true, List.any_eq_false] at g
        exact g o ho
  have hsrc : ∀ m1, redsS c (st.res 1 0) m = .ok m1 →
      ∀ r ∈ F, ∀ i, r.has i → m1 (c.cells.src r.mapNo i) = m (c.cells.src r.mapNo i) := by
    intro m1 e r hr i hri
    refine r2 m1 ((er m1).1 e) _ ?_
    obtain ⟨p1, f', b', e1, e2, e3, e4, _⟩ := ok.mapF r hr
    have e1' := e1
    rw [hf] at e1
    have : f' = f := by
      match r.mapNo.toNat, e1 with
      | 0, e => simpa using e.symm
      | n + 1, e => simp at e
    subst this
    have : c.cells.src r.mapNo i = fb + (i - f'.lo) := by simp [SCtx.cells, e1', SMap.cell, hfb]
    rw [this]
    unfold TR.has at hri
    omega
  refine ⟨?_, ?_⟩
  · constructor
    · rintro ⟨m', e⟩
      rw [doTrans_eq hone, singleExec_eq hone] at e
      cases eb : redsS c (st.res 1 0) m with
      | error => rw [eb] at e; cases e
      | ok m1 =>
        intro x y ins outs a b hm
        exact r1.1 ⟨m1, (er m1).1 eb⟩ x y ins outs a b (List.mem_filter.2 ⟨hm, rfl⟩)
    · intro hall
      obtain ⟨m1, e⟩ := r1.2 (fun x y ins outs a b hm => hall x y ins outs a b (List.mem_filter.1 hm).1)
      have e' := (er m1).2 e
      obtain ⟨m', e1, _⟩ := keeps_of_exec ok h hc e' (hsrc m1 e')
      exact ⟨m', e1⟩
  · intro m' e
    have e0 := e
    rw [doTrans_eq hone, singleExec_eq hone] at e
    cases eb : redsS c (st.res 1 0) m with
    | error => rw [eb] at e; cases e
    | ok m1 =>
      obtain ⟨m'', e1, e2⟩ := keeps_of_exec ok h hc eb (hsrc m1 eb)
      rw [e0] at e1
      cases e1
      exact e2

theorem redLoop_same {c : SCtx} {F T : List TR} (ok : SOK c F T) {f t : SMap} {b : Int} (hf : c.fl = [f]) (ht : c.tl = [t])
    (hfb : f.base = some b) (htb : t.base = some b) (ops : List ROp) (hone : ∀ o ∈ ops, One F T o) (m : Int → V) :
    redLoopS c.blocks f t ops m = .ok m := by
  induction ops with
  | nil => rfl
  | cons o ops ih =>
    replace ih := ih (fun o ho => hone o (List.mem_cons_of_mem _ ho))
    cases hone o List.mem_cons_self with
    | loc x y a b hxy hl => exact ih
    | red x y a b' hxy hr =>
      obtain ⟨s1, s2, s3⟩ := red_size ok hf ht htb (One.red x y a b' hxy hr)
      unfold redLoopS
      rw [hfb, htb]
      simp only []
      rw [if_neg (by simp), if_neg (by simp [hxy])]
      have e1 : memcpyS c.blocks m b b (y - x) = .ok m := by
        unfold memcpyS
        rw [if_neg (by omega), s3]
        simp only [Bool.and_self, Bool.not_true, Bool.false_eq_true, if_false, ne_eq, not_true, false_and]
        congr 1
        funext a
        split
        · congr 1; omega
        · rfl
      rw [e1]
      exact ih

/-- C50: with new indices and one mapping in both partitionings which start at the
same address, the switch is done without failure and keeps all values.  Missing:
reuse with other start, which may lose values (`C50_new_reused_loses_values`). -/
theorem C50_new_reused_partial {c : SCtx} {F T : List TR} (ok : SOK c F T) (h : TransOK 1 F T) {redOp : Nat} {F' T' : List TR} {st : TSt}
    (hc : Calculated 1 redOp F T 0 F' T' st) {f t : SMap} {b : Int} (hf : c.fl = [f]) (ht : c.tl = [t])
    (hfb : f.base = some b) (htb : t.base = some b) (m : Int → V) :
    ∃ m', doTransS c (st.res 1 0) m = .ok m' ∧ Keeps c F T m m' := by
  have hone := one_of_calculated h hc
  refine keeps_of_exec ok h hc (m1 := m) ?_ (fun _ _ _ _ => rfl)
  unfold redsS
  rw [hf, ht]
  split
  · exact redLoop_same ok hf ht hfb htb _ (fun o ho => hone o (List.mem_filter.1 ho).1) m
  · rfl

/-- C50: with new indices, but no or several mappings in source or target, the
backend aborts. -/
theorem C50_new_needs_one_mapping {c : SCtx} {F T : List TR} (h : TransOK 1 F T) {redOp : Nat} {F' T' : List TR} {st : TSt}
    (hc : Calculated 1 redOp F T 0 F' T' st) (hn : ∃ r ∈ T, ∃ i, r.has i ∧ ∀ r' ∈ F, ¬ r'.has i)
    (hmaps : c.fl.length ≠ 1 ∨ c.tl.length ≠ 1) (m : Int → V) : doTransS c (st.res 1 0) m = .error .assert := by
  have hone := one_of_calculated h hc
  have hred : (st.res 1 0).any isRedOp = true := by
    obtain ⟨r, hr, i, hri, hno⟩ := hn
    obtain ⟨s, hs, hsi⟩ := segs_cover (cutsOf_sorted F T) ((mem_cutsOf F T _).2 ⟨r, Or.inr hr, Or.inl rfl⟩)
      ((mem_cutsOf F T _).2 ⟨r, Or.inr hr, Or.inr rfl⟩) hri.1 hri.2
    obtain ⟨l, el⟩ := (hc.segs h).1 s hs
    have hat := ops_at h hc hs hsi el
    have t0 : r.task = 0 := by have := h.goodT.task r hr; omega
    have oT : 0 ∈ ownersAt T 1 i := (mem_ownersAt h.goodT.task i 0).2 ⟨r, hr, t0, hri⟩
    have oF : 0 ∉ ownersAt F 1 i := by
      intro g
      obtain ⟨q, hq, _, hqi⟩ := (mem_ownersAt h.goodF.task i 0).1 g
      exact hno q hq hqi
    rw [owners_const_of (fun r hr => seg_has hs (Or.inl hr) hsi)] at oF
    rw [owners_const_of (fun r hr => seg_has hs (Or.inr hr) hsi)] at oT
    rw [List.any_eq_true]
    rcases specSeg_cases el with ⟨_, c, _⟩ | ⟨e, rfl⟩ | ⟨q, hq, e, _⟩ | ⟨e, rfl⟩
    · exact absurd oT c
    · rw [e] at oF; exact absurd (List.mem_singleton.2 rfl) oF
    · rcases owners_one F s.1 with g | g
      · rw [g] at e; cases e
      · rw [g] at oF; exact absurd (List.mem_singleton.2 rfl) oF
    · refine ⟨_, (List.mem_filter.1 (hat ▸ List.mem_singleton.2 rfl)).1, rfl⟩
  rw [doTrans_eq hone, singleExec_eq hone]
  unfold redsS
  rw [if_pos hred]
  match e1 : c.fl, e2 : c.tl with
  | [], _ => rfl
  | [_], [] => rfl
  | [_], [_] => rw [e1, e2] at hmaps; simp at hmaps
  | [_], _ :: _ :: _ => rfl
  | _ :: _ :: _, _ => rfl

/-! ### Failures with new indices -/

def rng (a b : Int) : TR := ⟨0, 0, iv a b, 0⟩

/-- A source mapping starting with index `l` at address 100, and a target mapping
starting with index `l'` at address `b`; indices up to `u` and `u'`; `reused`: the
memory of the source mapping is reused. -/
def exCtx (l u l' u' b : Int) (reused : Bool) (blocks : List (Int × Int)) : SCtx :=
  ⟨[⟨some 100, l, u, if reused then 0 else -1⟩], [⟨some b, l', u', -1⟩], blocks, false⟩

theorem exCtx_ok {l u l' u' b : Int} {reused : Bool} {blocks : List (Int × Int)} {F T : List TR}
    (hF : ∀ r ∈ F, r.mapNo = 0 ∧ l ≤ r.box.lo.x ∧ r.box.hi.x ≤ u) (hT : ∀ r ∈ T, r.mapNo = 0 ∧ l' ≤ r.box.lo.x ∧ r.box.hi.x ≤ u')
    (h1 : ∃ k ∈ blocks, k.1 ≤ 100 ∧ 100 + (u - l) ≤ k.2) (h2 : ∃ k ∈ blocks, k.1 ≤ b ∧ b + (u' - l') ≤ k.2)
    (hs : if reused then b = 100 + (l' - l) else 100 + (u - l) ≤ b ∨ b + (u' - l') ≤ 100) :
    SOK (exCtx l u l' u' b reused blocks) F T where
  mapF r hr := ⟨by rw [(hF r hr).1], ⟨some 100, l, u, if reused then 0 else -1⟩, 100, by rw [(hF r hr).1]; rfl, rfl, (hF r hr).2.1, (hF r hr).2.2, h1⟩
  mapT r hr := ⟨by rw [(hT r hr).1], ⟨some b, l', u', -1⟩, b, by rw [(hT r hr).1]; rfl, rfl, (hT r hr).2.1, (hT r hr).2.2, h2⟩
  sep := by
    rintro i j a (⟨r, hr, _, hri, rfl⟩ | ⟨r, hr, _, hri, rfl⟩) (⟨q, hq, _, hqi, e⟩ | ⟨q, hq, _, hqi, e⟩)
    · rw [(hF r hr).1, (hF q hq).1] at e
      have : 100 + (i - l) = 100 + (j - l) := e
      omega
    · have a1 := (hF r hr).2
      have a2 := (hT q hq).2
      rw [(hF r hr).1, (hT q hq).1] at e
      have : 100 + (i - l) = b + (j - l') := e
      unfold TR.has at hri hqi
      cases reused
      · simp only [Bool.false_eq_true, if_false] at hs; omega
      · simp only [if_true] at hs; omega
    · have a1 := (hF q hq).2
      have a2 := (hT r hr).2
      rw [(hT r hr).1, (hF q hq).1] at e
      have : b + (i - l') = 100 + (j - l) := e
      unfold TR.has at hri hqi
      cases reused
      · simp only [Bool.false_eq_true, if_false] at hs; omega
      · simp only [if_true] at hs; omega
    · rw [(hT r hr).1, (hT q hq).1] at e
      have : b + (i - l') = b + (j - l') := e
      omega
  same := by
    intro r hr r' hr' hsk i _ _
    rw [(hF r hr).1, (hT r' hr').1] at hsk ⊢
    cases reused
    · exact absurd hsk (by simp [SCtx.skip, exCtx])
    · simp only [if_true] at hs
      show 100 + (i - l) = b + (i - l')
      omega

/-- Source `[0;12[` and `[18;20[`, in one mapping, target `[10;20[`. -/
def exGap : List TR := [rng 0 12, rng 18 20]
def exTail : List TR := [rng 10 20]

def exGapBorders : List Border :=
  [⟨0, 0, 0, 0, true, true⟩, ⟨10, 0, 0, 0, true, false⟩, ⟨12, 0, 0, 0, false, true⟩, ⟨18, 0, 1, 0, true, true⟩,
    ⟨20, 0, 1, 0, false, true⟩, ⟨20, 0, 0, 0, false, false⟩]

def exGapSt : TSt := ⟨[], [], false, false, (1, 0), (0, 0), [[], [0]],
  [.loc 10 12 (0, 0) (0, 0), .red 12 18 0 (-1) (0, 0) (0, 0), .loc 18 20 (1, 0) (0, 0)]⟩

theorem exGapOK : TransOK 1 exGap exTail :=
  ⟨⟨by decide, by decide, by decide⟩, ⟨by decide, by decide, by decide⟩, by decide, by decide,
    fun r hr => by revert r; decide, fun r hr => by revert r; decide⟩

theorem exGapCalc : Calculated 1 4 exGap exTail 0 exGap exTail exGapSt :=
  ⟨Enough.refl (n := 1) _ _ exGapOK.goodF (by decide), Enough.refl (n := 1) _ _ exGapOK.goodT (by decide),
    exGapBorders, ⟨by decide, by decide⟩, by decide⟩

/-- C50 is false if memory is reused for a target mapping which starts at another
index: values of kept indices are lost.  Here the source has indices 0 to 11 and
18, 19 in one mapping, the target has 10 to 19 in the same memory.  For the 6 new
indices, the first 6 elements of the source are copied to the start of the target,
where the kept indices 10 and 11 are. -/
theorem C50_new_reused_loses_values : ∃ (c : SCtx) (F T F' T' : List TR) (st : TSt) (m m' : Int → Int),
    SOK c F T ∧ TransOK 1 F T ∧ Calculated 1 4 F T 0 F' T' st ∧ doTransS c (st.res 1 0) m = .ok m' ∧
    m (c.cells.src 0 10) = 110 ∧ m' (c.cells.dst 0 10) = 100 ∧ ¬ Keeps c F T m m' := by
  have hd : ∃ m' : Int → Int, doTransS (exCtx 0 20 10 20 110 true [(100, 120)]) (exGapSt.res 1 0) (fun a => a) = .ok m' ∧ m' 110 = 100 := by
    refine ⟨_, rfl, ?_⟩
    decide
  obtain ⟨m', e1, e2⟩ := hd
  refine ⟨exCtx 0 20 10 20 110 true [(100, 120)], exGap, exTail, exGap, exTail, exGapSt, fun a => a, m',
    exCtx_ok (by decide) (by decide) (by decide) (by decide) (by decide), exGapOK, exGapCalc, e1, rfl, e2, ?_⟩
  intro hk
  have := hk (rng 0 12) (by decide) (rng 10 20) (by decide) 10 (by decide) (by decide)
  have e3 : m' 110 = 110 := this
  omega

def exFive : List TR := [rng 0 5]
def exTwenty : List TR := [rng 0 20]

def exFiveSt : TSt := ⟨[], [], false, false, (0, 0), (0, 0), [[], [0]],
  [.loc 0 5 (0, 0) (0, 0), .red 5 20 0 (-1) (0, 0) (0, 0)]⟩

theorem exFiveOK : TransOK 1 exFive exTwenty :=
  ⟨⟨by decide, by decide, by decide⟩, ⟨by decide, by decide, by decide⟩, by decide, by decide,
    fun r hr => by revert r; decide, fun r hr => by revert r; decide⟩

theorem exFiveCalc : Calculated 1 4 exFive exTwenty 0 exFive exTwenty exFiveSt :=
  ⟨Enough.refl (n := 1) _ _ exFiveOK.goodF (by decide), Enough.refl (n := 1) _ _ exFiveOK.goodT (by decide),
    [⟨0, 0, 0, 0, true, true⟩, ⟨0, 0, 0, 0, true, false⟩, ⟨5, 0, 0, 0, false, true⟩, ⟨20, 0, 0, 0, false, false⟩],
    ⟨by decide, by decide⟩, by decide⟩

/-- C50 is false if there are more new indices than elements in the source: the
backend reads behind the end of the source mapping. -/
theorem C50_new_reads_outside : ∃ (c : SCtx) (F T F' T' : List TR) (st : TSt),
    SOK c F T ∧ TransOK 1 F T ∧ Calculated 1 4 F T 0 F' T' st ∧
    ∀ m : Int → Int, doTransS c (st.res 1 0) m = .error .oob := by
  refine ⟨exCtx 0 5 0 20 200 false [(100, 105), (200, 220)], exFive, exTwenty, exFive, exTwenty, exFiveSt,
    exCtx_ok (by decide) (by decide) (by decide) (by decide) (by decide), exFiveOK, exFiveCalc, ?_⟩
  intro m
  rfl

/-! ### Cases meeting the hypotheses -/

/-- The gap is copied into a separate mapping with success, indices are kept. -/
example : ∃ m' : Int → Int, doTransS (exCtx 0 20 10 20 200 false [(100, 120), (200, 210)]) (exGapSt.res 1 0) (fun a => a) = .ok m' ∧
    m' 200 = 110 ∧ m' 209 = 119 := by
  have ok : SOK (exCtx 0 20 10 20 200 false [(100, 120), (200, 210)]) exGap exTail :=
    exCtx_ok (by decide) (by decide) (by decide) (by decide) (by decide)
  have hsep : ∀ n : Int, 0 < n → okRange [(100, 120), (200, 210)] 100 n = true → n ≤ 20 - 10 → 100 + n ≤ 200 ∨ 200 + n ≤ 100 := by
    intro n _ _ _
    omega
  obtain ⟨h1, h2⟩ := C50_new_separate_partial ok exGapOK exGapCalc rfl rfl rfl rfl hsep (Or.inl (by decide)) (fun a : Int => a)
  obtain ⟨m', e⟩ := h1.2 (by
    intro x y ins outs a b hm
    have : ROp.red x y ins outs a b = .red 12 18 [] [0] none (some (0, 0)) := by
      have hm' : ROp.red x y ins outs a b ∈
        [ROp.loc 10 12 (0, 0) (0, 0), .red 12 18 [] [0] none (some (0, 0)), .loc 18 20 (1, 0) (0, 0)] := hm
      simpa using hm'
    cases this
    decide)
  exact ⟨m', e, h2 m' e (rng 0 12) (by decide) (rng 10 20) (by decide) 10 (by decide) (by decide),
    h2 m' e (rng 18 20) (by decide) (rng 10 20) (by decide) 19 (by decide) (by decide)⟩

/-- Reuse with the same start. -/
example (m : Int → Int) : ∃ m', doTransS (exCtx 0 20 0 20 100 true [(100, 120)]) (exFiveSt.res 1 0) m = .ok m' ∧
    Keeps (exCtx 0 20 0 20 100 true [(100, 120)]) exFive exTwenty m m' :=
  C50_new_reused_partial (exCtx_ok (by decide) (by decide) (by decide) (by decide) (by decide)) exFiveOK exFiveCalc rfl rfl rfl rfl m

/-- No new index, memory reused. -/
example (m : Int → Int) : ∃ (st : TSt) (m' : Int → Int), doTransS (exCtx 0 20 10 20 110 true [(100, 120)]) (st.res 1 0) m = .ok m' ∧
    Keeps (exCtx 0 20 10 20 110 true [(100, 120)]) exTwenty exTail m m' := by
  have ok : TransOK 1 exTwenty exTail :=
    ⟨⟨by decide, by decide, by decide⟩, ⟨by decide, by decide, by decide⟩, by decide, by decide,
      fun r hr => by revert r; decide, fun r hr => by revert r; decide⟩
  have hc : Calculated 1 0 exTwenty exTail 0 exTwenty exTail
      ⟨[], [], false, false, (0, 0), (0, 0), [], [.loc 10 20 (0, 0) (0, 0)]⟩ :=
    ⟨Enough.refl (n := 1) _ _ ok.goodF (by decide), Enough.refl (n := 1) _ _ ok.goodT (by decide),
      [⟨0, 0, 0, 0, true, true⟩, ⟨10, 0, 0, 0, true, false⟩, ⟨20, 0, 0, 0, false, true⟩, ⟨20, 0, 0, 0, false, false⟩],
      ⟨by decide, by decide⟩, by decide⟩
  obtain ⟨m', h⟩ := C50_no_new_partial
    (exCtx_ok (l := 0) (u := 20) (l' := 10) (u' := 20) (b := 110) (reused := true) (blocks := [(100, 120)])
      (by decide) (by decide) (by decide) (by decide) (by decide)) ok hc (by
      intro r hr i hri
      rcases List.mem_singleton.1 hr with rfl
      refine ⟨rng 0 20, by decide, ?_⟩
      unfold TR.has rng iv at *
      simp only [] at *
      omega) m
  exact ⟨_, m', h⟩

/-- Two mappings in the target and a new index. -/
example (m : Int → Int) : doTransS ⟨[⟨some 100, 0, 5, -1⟩], [⟨some 200, 0, 20, -1⟩, ⟨some 300, 30, 40, -1⟩], [], false⟩ (exFiveSt.res 1 0) m =
    .error .assert :=
  C50_new_needs_one_mapping exFiveOK exFiveCalc ⟨rng 0 20, by decide, 7, by decide, by decide⟩ (Or.inr (by decide)) m

end Laik.Sgl
