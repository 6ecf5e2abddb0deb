import Verif.Model.LayoutTraverse
/-!
# Pack and unpack: relation to the list of remaining indexes
-/

namespace Laik.Lay

/-- All entries of the layout are as `laik_new_layout_lex` creates them. -/
def LexLayout.GoodL (l : LexLayout) : Prop := ∀ e ∈ l.e, Good l.dims e

instance (l : LexLayout) : Decidable l.GoodL := by unfold LexLayout.GoodL; infer_instance

/-- A mapping fits its layout: the section exists and its range contains all
required indexes. -/
def LMap.WF (m : LMap) : Prop :=
  m.lay.GoodL ∧ ∃ e, m.lay.e[m.sect]? = some e ∧ SubsetOf m.lay.dims m.required e.box

/-- The strides of entry 0 are those of the section of the mapping. -/
def LMap.Strides0 (m : LMap) : Prop :=
  ∀ e0 e, m.lay.e[0]? = some e0 → m.lay.e[m.sect]? = some e → e0.s1 = e.s1 ∧ e0.s2 = e.s2

/-- Memory cell of an index of the required range. -/
def LMap.cell (m : LMap) (p : Idx) : Int := (m.addr p).getD 0

theorem good_of_getElem? {l : LexLayout} (h : l.GoodL) {n : Nat} {e : LexEntry}
    (he : l.e[n]? = some e) : Good l.dims e := h e (List.mem_of_getElem? he)

theorem addr_eq {m : LMap} {e : LexEntry} (hg : m.lay.GoodL) (he : m.lay.e[m.sect]? = some e)
    {p : Idx} (hp : Mem m.lay.dims e.box p) :
    m.addr p = some (m.start + e.off m.lay.dims p) := by
  have := off_bounds (good_of_getElem? hg he) hp
  simp [LMap.addr, offsetLex, he, this]

theorem cell_eq {m : LMap} {e : LexEntry} (hg : m.lay.GoodL) (he : m.lay.e[m.sect]? = some e)
    {p : Idx} (hp : Mem m.lay.dims e.box p) : m.cell p = m.start + e.off m.lay.dims p := by
  simp [LMap.cell, addr_eq hg he hp]

theorem addr_cell {m : LMap} (h : m.WF) {p : Idx} (hp : Mem m.lay.dims m.required p) :
    m.addr p = some (m.cell p) := by
  obtain ⟨hg, e, he, hs⟩ := h
  rw [addr_eq hg he (hs p hp), cell_eq hg he (hs p hp)]

theorem cell_canon (m : LMap) (p : Idx) : m.cell (canon m.lay.dims p) = m.cell p := by
  unfold LMap.cell LMap.addr offsetLex
  cases m.lay.e[m.sect]? with
  | none => rfl
  | some e => simp only [off_canon]

theorem cell_inj {m : LMap} (h : m.WF) {p q : Idx} (hp : Mem m.lay.dims m.required p)
    (hq : Mem m.lay.dims m.required q) (heq : m.cell p = m.cell q) :
    canon m.lay.dims p = canon m.lay.dims q := by
  obtain ⟨hg, e, he, hs⟩ := h
  rw [cell_eq hg he (hs p hp), cell_eq hg he (hs q hq)] at heq
  exact off_inj (good_of_getElem? hg he) (hs p hp) (hs q hq) (by omega)

theorem within_of_mem {d : Dims} {a b : Box} (hm : ∃ p, Mem d a p) (hs : SubsetOf d a b) :
    a.within d b = true := by
  rw [within_iff_dims]
  have := (subset_iff d a b hm).1 hs
  intro k hk _; exact this k hk

/-- The common part of `pack_lex`/`unpack_lex` copies the remaining indexes in
order. -/
theorem lexTraverse_spec {σ : Type} {m : LMap} (body : σ → Option (Int → σ)) (h : m.WF)
    (hst : m.Strides0) {b : Box} {i : Idx} (s : σ) (hb : SubsetOf m.lay.dims b m.required)
    (hi : Mem m.lay.dims b i) :
    ∃ i', lexTraverse m body s b i =
        some ((runP body m.cell s (remPts m.lay.dims b (canon m.lay.dims i))).1, i') ∧
      At m.lay.dims b i' (runP body m.cell s (remPts m.lay.dims b (canon m.lay.dims i))).2 := by
  obtain ⟨hg, e, he, hs⟩ := h
  have hge := good_of_getElem? hg he
  have hlen : m.sect < m.lay.e.length := by
    have := List.getElem?_eq_some_iff.1 he; exact this.1
  have he0 : m.lay.e[0]? = some (m.lay.e[0]'(by omega)) := List.getElem?_eq_getElem _
  generalize m.lay.e[0]'(by omega) = e0 at he0
  have hg0 := good_of_getElem? hg he0
  obtain ⟨hst1, hst2⟩ := hst e0 e he0 he
  have hib := canon_mem_bounds hi
  obtain ⟨g1, g2, g3, g4, g5, g6, g7, g8, g9⟩ := good_spec hg0
  have hw : b.within m.lay.dims m.required = true := within_of_mem ⟨i, hi⟩ hb
  have hoff : offsetLex m.lay m.sect i = some (e.off m.lay.dims i) := by
    have := off_bounds hge (hs i (hb i hi))
    simp [offsetLex, he, this]
  -- address function
  let ad : Idx → Int := fun p => m.start + e.off3 m.lay.dims p.x p.y p.z
  have hcell : ∀ p, Mem m.lay.dims b p → canon m.lay.dims p = p → m.cell p = ad p := by
    intro p hp hc
    rw [cell_eq hg he (hs p (hb p hp)), off_eq_off3 hge, hc]
  have hcongr : runP body m.cell s (remPts m.lay.dims b (canon m.lay.dims i)) =
      runP body ad s (remPts m.lay.dims b (canon m.lay.dims i)) := by
    apply runP_congr
    intro p hp
    obtain ⟨q1, q2⟩ := remPts_sub hi p hp
    exact hcell p q1 q2
  rw [hcongr]
  have hptr : m.start + e.off m.lay.dims i =
      ad ⟨i.x, (canon m.lay.dims i).y, (canon m.lay.dims i).z⟩ := by
    show _ = m.start + _
    rw [off_eq_off3 hge]; rfl
  have hassert : e0.s0 = 1 ∧ (m.lay.dims.toNat > 1 → e0.s0 ≤ e0.s1) ∧
      (m.lay.dims.toNat > 2 → e0.s1 ≤ e0.s2) := by
    refine ⟨g4, fun hd => ?_, fun hd => ?_⟩
    · rw [g5 hd]; omega
    · rw [g5 (by omega), g7 hd]
      have : e0.box.lo.y < e0.box.hi.y := by
        simp only [ylo, yhi, show m.lay.dims.toNat > 1 by omega, if_true] at g2; exact g2
      have := Int.mul_le_mul_of_nonneg_left (show 1 ≤ e0.box.hi.y - e0.box.lo.y by omega)
        (show 0 ≤ e0.box.hi.x - e0.box.lo.x by omega)
      omega
  have f1 : (if m.lay.dims.toNat < 2 then (0 : Int) else b.lo.y) = ylo m.lay.dims b := by
    unfold ylo; split <;> split <;> first | rfl | omega
  have f2 : (if m.lay.dims.toNat < 2 then (1 : Int) else b.hi.y) = yhi m.lay.dims b := by
    unfold yhi; split <;> split <;> first | rfl | omega
  have f3 : (if m.lay.dims.toNat < 3 then (1 : Int) else b.hi.z) = zhi m.lay.dims b := by
    unfold zhi; split <;> split <;> first | rfl | omega
  have f4 : (if m.lay.dims.toNat < 2 then (0 : Int) else i.y) = (canon m.lay.dims i).y := by
    simp only [canon]; split <;> split <;> first | rfl | omega
  have f5 : (if m.lay.dims.toNat < 3 then (0 : Int) else i.z) = (canon m.lay.dims i).z := by
    simp only [canon]; split <;> split <;> first | rfl | omega
  obtain ⟨x', y', z', stop, k1, k2, k3⟩ := lexZ_spec body ad b.lo.x b.hi.x (ylo m.lay.dims b)
    (yhi m.lay.dims b) (zhi m.lay.dims b) (e0.s1 - (b.hi.x - b.lo.x))
    (e0.s2 - e0.s1 * (yhi m.lay.dims b - ylo m.lay.dims b)) (by omega) (by omega)
    (by intro x y z; simp only [ad, LexEntry.off3]; omega)
    (by intro y z _; simp only [ad, LexEntry.off3]; rw [hst1]; grind)
    (by intro z _; simp only [ad, LexEntry.off3]; rw [hst1, hst2]; grind)
    ((zhi m.lay.dims b - (canon m.lay.dims i).z).toNat - 1) s i.x (canon m.lay.dims i).y
    (canon m.lay.dims i).z (by omega) (by omega) (by omega) (by omega) (by omega)
  rw [show (zhi m.lay.dims b - (canon m.lay.dims i).z).toNat - 1 + 1 =
    (zhi m.lay.dims b - (canon m.lay.dims i).z).toNat by omega] at k1
  have hrem : remPts m.lay.dims b (canon m.lay.dims i) =
      remZ b.lo.x b.hi.x (ylo m.lay.dims b) (yhi m.lay.dims b) (zhi m.lay.dims b) i.x
        (canon m.lay.dims i).y (canon m.lay.dims i).z := rfl
  rw [hrem]
  unfold lexTraverse
  simp only [he0]
  rw [if_neg (fun hn => hn hassert)]
  simp only [hoff, hw, f1, f2, f3, f4, f5, hptr, k1, not_true_eq_false, if_false]
  cases stop with
  | true =>
    obtain ⟨q1, q2, q3, q4, q5, q6, q7⟩ := k3 rfl
    refine ⟨⟨x', y', z'⟩, rfl, .inr ?_⟩
    obtain ⟨r1, r2⟩ := mem_of_bounds (d := m.lay.dims) (b := b) (i := ⟨x', y', z'⟩)
      ⟨⟨q1, q2⟩, ⟨q3, q4⟩, ⟨by simp only; omega, q6⟩⟩
    refine ⟨r1, ?_⟩
    rw [q7, r2]; rfl
  | false =>
    obtain ⟨q1, q2⟩ := k2 rfl
    refine ⟨⟨b.hi.x, yhi m.lay.dims b, z'⟩, rfl, .inl ⟨q1, ?_⟩⟩
    rw [q2]
    simp only [canon, yhi, zhi]
    congr 1
    · split <;> simp
    · split <;> simp

/-! ### Effect of the element copies -/

theorem runP_pack {V : Type} (mem : Int → V) (ad : Idx → Int) (L : List Idx) :
    ∀ (out : List V) (cap : Nat), runP (packBody mem) ad ⟨out, cap⟩ L =
      (⟨out ++ (L.take cap).map (fun p => mem (ad p)), cap - L.length⟩, L.drop cap) := by
  induction L with
  | nil => intro out cap; simp [runP]
  | cons p L ih =>
    intro out cap
    cases cap with
    | zero => rw [runP_stop _ _ (by simp [packBody])]; simp
    | succ c =>
      rw [runP_go p L (f := fun a => ⟨out ++ [mem a], c⟩) (by simp [packBody]), ih]
      simp [Nat.add_sub_add_right]

theorem runP_unp {V : Type} (ad : Idx → Int) (L : List Idx) :
    ∀ (mem : Int → V) (buf : List V), runP unpBody ad ⟨mem, buf⟩ L =
      (⟨storeAll mem (L.map ad) buf, buf.drop L.length⟩, L.drop buf.length) := by
  induction L with
  | nil => intro mem buf; simp [runP, storeAll]
  | cons p L ih =>
    intro mem buf
    cases buf with
    | nil => rw [runP_stop _ _ (by simp [unpBody])]; simp [storeAll]
    | cons v vs =>
      rw [runP_go p L (f := fun a => ⟨fun c => if c = a then v else mem c, vs⟩)
        (by simp [unpBody]), ih]
      simp [storeAll]

/-- Both pack functions: from a position with remaining indexes `S`, exactly
the values of the first `cap` of them are written, in order, and the position
moves on by that many. -/
theorem pack_step {V : Type} (im : Impl) {m : LMap} (h : m.WF) (hst : im = .lex → m.Strides0)
    (mem : Int → V) {b : Box} (hb : SubsetOf m.lay.dims b m.required) {i : Idx} {S : List Idx}
    (hi : At m.lay.dims b i S) (cap : Nat) :
    ∃ i', packI im m mem b i cap = some ((S.take cap).map (fun p => mem (m.cell p)), i') ∧
      At m.lay.dims b i' (S.drop cap) := by
  have hend := at_end hi
  rcases hi with ⟨h1, h2⟩ | ⟨h1, h2⟩
  · have he : indexIsEqual m.lay.dims i b.hi = true := hend.2 h1
    refine ⟨i, ?_, ?_⟩
    · cases im <;> simp [packI, packLex, packGen, he, h1]
    · rw [h1]; left; simp [h2]
  · have he : indexIsEqual m.lay.dims i b.hi = false := by
      rw [← Bool.not_eq_true, hend, h2]; exact remPts_ne_nil h1
    have hr := runP_pack mem m.cell S [] cap
    cases im with
    | lex =>
      obtain ⟨i', g1, g2⟩ := lexTraverse_spec (packBody mem) h (hst rfl) ⟨[], cap⟩ hb h1
      rw [← h2, hr] at g1 g2
      refine ⟨i', ?_, g2⟩
      simp [packI, packLex, he, g1]
    | gen =>
      have hw : b.within m.lay.dims m.required = true := within_of_mem ⟨i, h1⟩ hb
      obtain ⟨i', g1, g2⟩ := genLoop_spec (d := m.lay.dims) (b := b) (addr := m.addr)
        (body := packBody mem) (ad := m.cell) (fun s => s.cap)
        (by
          intro s f a hf
          unfold packBody at hf
          split at hf
          · simp at hf
          · simp only [Option.some.injEq] at hf
            rw [← hf]; simp only; omega)
        (by intro p hp; rw [cell_canon]; exact addr_cell h (hb p hp))
        (cap + 1) ⟨[], cap⟩ i (by simp) h1
      rw [← h2, hr] at g1 g2
      refine ⟨i', ?_, g2⟩
      simp [packI, packGen, he, hw, g1]

/-- Both unpack functions: from a position with remaining indexes `S`, a
buffer of at most so many elements is stored to the cells of the first of
them, completely and in order. -/
theorem unpack_step {V : Type} (im : Impl) {m : LMap} (h : m.WF) (hst : im = .lex → m.Strides0)
    (mem : Int → V) {b : Box} (hb : SubsetOf m.lay.dims b m.required) {i : Idx} {S : List Idx}
    (hi : At m.lay.dims b i S) (buf : List V) (hbuf : buf ≠ []) (hS : S ≠ []) :
    ∃ i', unpackI im m mem b i buf =
        some (storeAll mem (S.map m.cell) buf, min buf.length S.length, i') ∧
      At m.lay.dims b i' (S.drop buf.length) := by
  have hend := at_end hi
  rcases hi with ⟨h1, h2⟩ | ⟨h1, h2⟩
  · exact absurd h1 hS
  · have he : indexIsEqual m.lay.dims i b.hi = false := by
      rw [← Bool.not_eq_true, hend]; exact hS
    have hne : buf.isEmpty = false := by cases buf <;> simp_all
    have hr := runP_unp m.cell S mem buf
    cases im with
    | lex =>
      obtain ⟨i', g1, g2⟩ := lexTraverse_spec unpBody h (hst rfl) ⟨mem, buf⟩ hb h1
      rw [← h2, hr] at g1 g2
      refine ⟨i', ?_, g2⟩
      simp [unpackI, unpackLex, he, hne, g1]
      omega
    | gen =>
      have hw : b.within m.lay.dims m.required = true := within_of_mem ⟨i, h1⟩ hb
      obtain ⟨i', g1, g2⟩ := genLoop_spec (d := m.lay.dims) (b := b) (addr := m.addr)
        (body := unpBody (V := V)) (ad := m.cell) (fun s => s.buf.length)
        (by
          intro s f a hf
          unfold unpBody at hf
          split at hf
          · simp at hf
          · rename_i v vs hs
            simp only [Option.some.injEq] at hf
            rw [← hf, hs]; simp)
        (by intro p hp; rw [cell_canon]; exact addr_cell h (hb p hp))
        (buf.length + 1) ⟨mem, buf⟩ i (by simp) h1
      rw [← h2, hr] at g1 g2
      refine ⟨i', ?_, g2⟩
      simp [unpackI, unpackGen, he, hne, hw, g1]
      omega

end Laik.Lay
