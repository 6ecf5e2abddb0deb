import Verif.Model.TcpData
import Verif.Model.TcpFrameLemmas
import Verif.Model.LayoutCopy
import Verif.Spec.Transfer
import Mathlib.Data.List.Nodup
/-!
# Lemmas on sending and receiving a range
-/

namespace Laik.Tcp
open Laik.Lay Laik.Codec

/-! ### The loop of the sender -/

/-- `emit` for the points of a list. -/
def emitAll {S : Type} (emit : S → Nat → Idx → Bytes → Except SFault S) (val : Idx → Bytes) :
    S → Nat → List Idx → Except SFault S
  | s, _, [] => .ok s
  | s, n, p :: ps =>
    match emit s n p (val p) with
    | .error e => .error e
    | .ok s' => emitAll emit val s' (n + 1) ps

theorem sendLoop_spec {S : Type} {d : Dims} {b : Box} {addr : Idx → Option Int} {cell : Idx → Int}
    {mem : Int → Bytes} {emit : S → Nat → Idx → Bytes → Except SFault S}
    (ha : ∀ p, Mem d b p → addr p = some (cell p)) (hcc : ∀ p, cell (canon d p) = cell p)
    (he : ∀ s n i e, emit s n (canon d i) e = emit s n i e) :
    ∀ (fuel : Nat) (s : S) (n : Nat) (i : Idx), Mem d b i →
    (remPts d b (canon d i)).length < fuel →
    sendLoop d b addr mem emit fuel s n i =
      match emitAll emit (fun p => mem (cell p)) s n (remPts d b (canon d i)) with
      | .error e => .error e
      | .ok s' => .ok (s', n + (remPts d b (canon d i)).length) := by
  intro fuel
  induction fuel with
  | zero => intro s n i _ h; omega
  | succ fuel ih =>
    intro s n i hi hf
    obtain ⟨h1, h2⟩ := nextLex_spec hi
    simp only [sendLoop, ha i hi]
    cases hb : (nextLex d b i).1 with
    | true =>
      obtain ⟨hm, hr⟩ := h1 hb
      rw [hr] at hf ⊢
      simp only [emitAll, hcc, he]
      cases emit s n i (mem (cell i)) with
      | error e => rfl
      | ok s' =>
        simp only [if_true]
        rw [ih s' (n + 1) _ hm (by simp at hf; omega)]
        cases emitAll emit _ s' (n + 1) _ with
        | error e => rfl
        | ok s2 => simp only [List.length_cons]; congr 2; omega
    | false =>
      rw [h2 hb]
      simp only [emitAll, hcc, he]
      cases emit s n i (mem (cell i)) with
      | error e => rfl
      | ok s' => simp

/-! ### Blocks -/

theorem wire_append (a b : List Msg) : wire (a ++ b) = wire a ++ wire b := by
  induction a with
  | nil => rfl
  | cons m ms ih => simp [wire, ih]

/-- A block with the elements of a group. -/
def grp (g : List Bytes) : Msg := .block g.flatten

/-- Effect of putting elements into the send buffer: complete groups were
sent, the rest is in the buffer. -/
theorem emitAll_bin {lid z : Nat} (_hz : 0 < z) (hz2 : z ≤ 8189) {val : Idx → Bytes} :
    ∀ (pts : List Idx) (s : SBuf) (n : Nat) (cur : List Bytes),
    (∀ p ∈ pts, (val p).length = z) → s.data = cur.flatten → s.data.length ≤ 8189 →
    (s.toLID = none ∧ cur = [] ∨ s.toLID = some lid ∧ cur ≠ []) →
    ∃ (groups : List (List Bytes)) (last : List Bytes) (s' : SBuf),
      emitAll (sendBin lid) val s n pts = .ok s' ∧
      s'.out = s.out ++ wire (groups.map grp) ∧ s'.data = last.flatten ∧
      groups.flatten ++ last = cur ++ pts.map val ∧
      (∀ g ∈ groups, g ≠ [] ∧ g.flatten.length ≤ 8189) ∧ s'.data.length ≤ 8189 ∧
      (s'.toLID = none ∧ last = [] ∨ s'.toLID = some lid ∧ last ≠ []) := by
  intro pts
  induction pts with
  | nil =>
    intro s n cur _ h1 h2 h3
    exact ⟨[], cur, s, rfl, by simp [wire], h1, by simp, by simp, h2, h3⟩
  | cons p ps ih =>
    intro s n cur hl h1 h2 h3
    have hlp : (val p).length = z := hl p (by simp)
    have hps : ∀ q ∈ ps, (val q).length = z := fun q hq => hl q (by simp [hq])
    by_cases hfull : 3 + s.data.length + (val p).length > sbufLen
    · have hne : cur ≠ [] := by
        intro h
        rw [h1, h, hlp] at hfull
        simp [sbufLen] at hfull
        omega
      have hlid : s.toLID = some lid := by
        rcases h3 with ⟨_, h⟩ | ⟨h, _⟩
        · exact absurd h hne
        · exact h
      have hstep : sendBin lid s n p (val p) = .ok
          { data := val p, toLID := some lid, out := s.out ++ (grp cur).bytes } := by
        simp only [sendBin, hfull, if_true, binFlush, hlid, Except.bind, binPut, true_or]
        rw [if_pos (by simp [hlp, sbufLen]; omega)]
        simp [grp, Msg.bytes, h1]
      obtain ⟨groups, last, s', e1, e2, e3, e4, e5, e6, e7⟩ := ih
        { data := val p, toLID := some lid, out := s.out ++ (grp cur).bytes } (n + 1) [val p] hps
        (by simp) (by simp only; omega) (.inr ⟨rfl, by simp⟩)
      refine ⟨cur :: groups, last, s', ?_, ?_, e3, ?_, ?_, e6, e7⟩
      · simp only [emitAll, hstep]; exact e1
      · rw [e2]; simp [wire]
      · simp only [List.flatten_cons, List.append_assoc, e4]; simp
      · intro g hg
        rcases List.mem_cons.1 hg with rfl | hg
        · exact ⟨hne, h1 ▸ h2⟩
        · exact e5 g hg
    · have hstep : sendBin lid s n p (val p) = .ok
          { s with data := s.data ++ val p, toLID := some lid } := by
        simp only [sendBin, hfull, if_false, binPut]
        rw [if_pos (by rcases h3 with ⟨h, _⟩ | ⟨h, _⟩ <;> simp [h]), if_pos (by omega)]
      obtain ⟨groups, last, s', e1, e2, e3, e4, e5, e6, e7⟩ := ih
        { s with data := s.data ++ val p, toLID := some lid } (n + 1) (cur ++ [val p]) hps
        (by simp [h1]) (by simp only [List.length_append]; unfold sbufLen at hfull; omega)
        (.inr ⟨rfl, by simp⟩)
      refine ⟨groups, last, s', ?_, e2, e3, ?_, e5, e6, e7⟩
      · simp only [emitAll, hstep]; exact e1
      · rw [e4]; simp

/-! ### Receiver -/

/-- Memory after combining the values `vs` into the addresses `as`. -/
def combineAll (f : Bytes → Bytes → Bytes) (mem : Int → Bytes) : List Int → List Bytes → Int → Bytes
  | a :: as, v :: vs => combineAll f (fun c => if c = a then f (mem a) v else mem c) as vs
  | _, _ => mem

theorem combineAll_nil (f : Bytes → Bytes → Bytes) (mem : Int → Bytes) (as : List Int) :
    combineAll f mem as [] = mem := by
  cases as <;> rfl

theorem combineAll_other (f : Bytes → Bytes → Bytes) : ∀ (as : List Int) (vs : List Bytes)
    (mem : Int → Bytes) (a : Int), a ∉ as → combineAll f mem as vs a = mem a := by
  intro as
  induction as with
  | nil => intros; rfl
  | cons b as ih =>
    intro vs mem a h
    cases vs with
    | nil => rfl
    | cons v vs =>
      simp only [List.mem_cons, not_or] at h
      simp only [combineAll]
      rw [ih _ _ _ h.2, if_neg h.1]

theorem combineAll_at (f : Bytes → Bytes → Bytes) (cell : Idx → Int) (val : Idx → Bytes) :
    ∀ (ps : List Idx) (mem : Int → Bytes), (ps.map cell).Nodup → ∀ p ∈ ps,
    combineAll f mem (ps.map cell) (ps.map val) (cell p) = f (mem (cell p)) (val p) := by
  intro ps
  induction ps with
  | nil => intro _ _ p hp; cases hp
  | cons q ps ih =>
    intro mem hn p hp
    simp only [List.map_cons, List.nodup_cons] at hn
    simp only [List.map_cons, combineAll]
    rcases List.mem_cons.1 hp with rfl | hp
    · rw [combineAll_other _ _ _ _ _ hn.1, if_pos rfl]
    · rw [ih _ hn.2 p hp]
      have : cell p ≠ cell q := fun h => hn.1 (h ▸ List.mem_map_of_mem hp)
      rw [if_neg this]

/-- States of a receive for a range backed by memory. -/
def RInv (s : Rcv) : Prop :=
  s.map.WF ∧ SubsetOf s.map.lay.dims s.range s.map.required ∧ s.roff ≤ s.rcount ∧
  (s.roff < s.rcount → Mem s.map.lay.dims s.range s.idx ∧
    (remPts s.map.lay.dims s.range (canon s.map.lay.dims s.idx)).length = s.rcount - s.roff)

/-- One element, in a state where elements are outstanding. -/
theorem storeElem_spec {s : Rcv} (h : RInv s) (hr : s.roff < s.rcount) (e : Bytes) :
    ∃ s', storeElem s e = (s', decide (s'.roff < s'.rcount)) ∧ RInv s' ∧
      s' = { s with mem := fun c => if c = s.map.cell s.idx then
                      newElem s.op (s.mem (s.map.cell s.idx)) e else s.mem c
                    roff := s.roff + 1, idx := s'.idx } ∧
      (s'.roff < s'.rcount →
        remPts s.map.lay.dims s.range (canon s.map.lay.dims s.idx) =
          canon s.map.lay.dims s.idx ::
            remPts s.map.lay.dims s.range (canon s.map.lay.dims s'.idx)) ∧
      (¬ s'.roff < s'.rcount →
        remPts s.map.lay.dims s.range (canon s.map.lay.dims s.idx) = [canon s.map.lay.dims s.idx]) := by
  obtain ⟨h1, h2, h3, h4⟩ := h
  obtain ⟨hm, hl⟩ := h4 hr
  have ha := addr_cell h1 (h2 _ hm)
  obtain ⟨n1, n2⟩ := nextLex_spec hm
  refine ⟨{ s with mem := fun c => if c = s.map.cell s.idx then
                      newElem s.op (s.mem (s.map.cell s.idx)) e else s.mem c
                   roff := s.roff + 1
                   idx := (nextLex s.map.lay.dims s.range s.idx).2 }, ?_, ?_, rfl, ?_, ?_⟩
  · simp only [storeElem, ha]
    congr 1
    cases hb : (nextLex s.map.lay.dims s.range s.idx).1 with
    | true =>
      obtain ⟨g1, g2⟩ := n1 hb
      have := List.length_pos_iff.2 (remPts_ne_nil g1)
      rw [g2] at hl
      simp only [List.length_cons] at hl
      symm; simp; omega
    | false =>
      rw [n2 hb] at hl
      simp only [List.length_singleton] at hl
      symm; simp; omega
  · refine ⟨h1, h2, hr, ?_⟩
    simp only
    intro hlt
    cases hb : (nextLex s.map.lay.dims s.range s.idx).1 with
    | true =>
      obtain ⟨g1, g2⟩ := n1 hb
      rw [g2] at hl
      simp only [List.length_cons] at hl
      exact ⟨g1, by omega⟩
    | false =>
      rw [n2 hb] at hl
      simp only [List.length_singleton] at hl
      omega
  · simp only
    intro hlt
    cases hb : (nextLex s.map.lay.dims s.range s.idx).1 with
    | true => exact (n1 hb).2
    | false =>
      rw [n2 hb] at hl
      simp only [List.length_singleton] at hl
      omega
  · simp only
    intro hlt
    cases hb : (nextLex s.map.lay.dims s.range s.idx).1 with
    | true =>
      obtain ⟨g1, g2⟩ := n1 hb
      have := List.length_pos_iff.2 (remPts_ne_nil g1)
      rw [g2] at hl
      simp only [List.length_cons] at hl
      omega
    | false => exact n2 hb

theorem gotData_inv {s : Rcv} (h : RInv s) (b : List Char) : RInv (gotData s b) := by
  unfold gotData
  split
  · exact h
  · split
    · exact h
    · split
      · exact h
      · rename_i hne
        split
        · exact h
        · rename_i e _
          have hr : s.roff < s.rcount := by have := h.2.2.1; omega
          obtain ⟨s', g1, g2, _⟩ := storeElem_spec h hr e
          simp only [g1]
          split <;> exact g2

theorem rcv_counting : Counting rcv RInv where
  line s b h := by
    simp only [rcv]
    split
    · exact gotData_inv h _
    · exact h
  elem s e h hr _ := by
    simp only [rcv] at hr ⊢
    have hr' : s.roff < s.rcount := by omega
    obtain ⟨s', g1, g2, g3, _⟩ := storeElem_spec h hr' e
    have e1 : s'.roff = s.roff + 1 := by rw [g3]
    have e2 : s'.rcount = s.rcount := by rw [g3]
    have e3 : s'.esize = s.esize := by rw [g3]
    rw [g1]
    refine ⟨g2, by simp only; omega, e3, ?_⟩
    simp only [decide_eq_true_eq]
    omega

/-- Effect of elements received in order. -/
theorem fold_store : ∀ (es : List Bytes) (s : Rcv), RInv s → es.length ≤ s.rcount - s.roff →
    ∃ s', es.foldl (fun s e => (rcv.elem s e).1) s = s' ∧ RInv s' ∧
      s' = { s with
        mem := combineAll (newElem s.op) s.mem
          ((remPts s.map.lay.dims s.range (canon s.map.lay.dims s.idx)).map s.map.cell) es
        roff := s.roff + es.length, idx := s'.idx } := by
  intro es
  induction es with
  | nil =>
    intro s h _
    refine ⟨s, rfl, h, ?_⟩
    simp [combineAll_nil]
  | cons e es ih =>
    intro s h hl
    simp only [List.length_cons] at hl
    obtain ⟨s1, g1, g2, g3, g4, g5⟩ := storeElem_spec h (by omega) e
    have e1 : s1.roff = s.roff + 1 := by rw [g3]
    have e2 : s1.rcount = s.rcount := by rw [g3]
    have e4 : s1.map = s.map := by rw [g3]
    have e5 : s1.range = s.range := by rw [g3]
    have e6 : s1.op = s.op := by rw [g3]
    have e7 : s1.mem = fun c => if c = s.map.cell s.idx then
      newElem s.op (s.mem (s.map.cell s.idx)) e else s.mem c := by rw [g3]
    obtain ⟨s2, k1, k2, k3⟩ := ih s1 g2 (by omega)
    have hmem : combineAll (newElem s1.op) s1.mem
        ((remPts s1.map.lay.dims s1.range (canon s1.map.lay.dims s1.idx)).map s1.map.cell) es =
        combineAll (newElem s.op) s.mem
          ((remPts s.map.lay.dims s.range (canon s.map.lay.dims s.idx)).map s.map.cell) (e :: es) := by
      rw [e4, e5, e6]
      by_cases hlt : s1.roff < s1.rcount
      · rw [g4 hlt]
        simp only [List.map_cons, combineAll, cell_canon, e7]
      · have : es = [] := List.length_eq_zero_iff.1 (by omega)
        subst this
        rw [g5 hlt, combineAll_nil, e7]
        simp only [List.map_cons, List.map_nil, combineAll, cell_canon]
    refine ⟨s2, ?_, k2, ?_⟩
    · simp only [List.foldl_cons, rcv, g1]; exact k1
    · rw [k3, hmem, e1]
      rw [g3]
      simp only [List.length_cons]
      congr 1
      omega

theorem pieces_flatten {z : Nat} : ∀ (g : List Bytes), (∀ e ∈ g, e.length = z) →
    pieces z g.length g.flatten = g := by
  intro g
  induction g with
  | nil => intro _; rfl
  | cons e g ih =>
    intro h
    have he := h e (by simp)
    simp only [List.length_cons, List.flatten_cons, pieces]
    rw [← he, List.take_left', List.drop_left', he, ih (fun x hx => h x (by simp [hx]))] <;> rfl

theorem length_flatten_eq {z : Nat} : ∀ (g : List Bytes), (∀ e ∈ g, e.length = z) →
    g.flatten.length = g.length * z := by
  intro g
  induction g with
  | nil => intro _; simp
  | cons e g ih =>
    intro h
    simp only [List.flatten_cons, List.length_append, List.length_cons, h e (by simp),
      ih (fun x hx => h x (by simp [hx])), Nat.succ_mul]
    omega

/-- Blocks with elements asked for are taken in element by element. -/
theorem afterAll_groups {z : Nat} (hz : 0 < z) : ∀ (groups : List (List Bytes)) (s : Rcv),
    RInv s → s.esize = z → (∀ e ∈ groups.flatten, e.length = z) →
    (∀ g ∈ groups, g ≠ [] ∧ g.flatten.length ≤ 8189) → groups.flatten.length ≤ s.rcount - s.roff →
    z ≤ rbufLen →
    afterAll rcv s (groups.map grp) = groups.flatten.foldl (fun s e => (rcv.elem s e).1) s ∧
    Proper rcv rbufLen s (groups.map grp) := by
  intro groups
  induction groups with
  | nil => intro s _ _ _ _ _ _; exact ⟨rfl, trivial⟩
  | cons g groups ih =>
    intro s h1 h2 h3 h4 h5 h6
    simp only [List.flatten_cons, List.length_append] at h5
    have hg : ∀ e ∈ g, e.length = z := fun e he => h3 e (by simp [he])
    obtain ⟨hne, hlen⟩ := h4 g (by simp)
    have hpos := List.length_pos_iff.2 hne
    have hfl := length_flatten_eq g hg
    have htake : takeIn rcv s g.flatten = g.foldl (fun s e => (rcv.elem s e).1) s := by
      unfold takeIn
      rw [if_neg (by simp only [rcv]; omega)]
      have : rcv.esize s = z := h2
      rw [this, hfl, Nat.mul_div_cancel _ hz, pieces_flatten g hg]
    obtain ⟨s', k1, k2, k3⟩ := fold_store g s h1 (by omega)
    have e1 : s'.roff = s.roff + g.length := by rw [k3]
    have e2 : s'.rcount = s.rcount := by rw [k3]
    have e3 : s'.esize = s.esize := by rw [k3]
    obtain ⟨i1, i2⟩ := ih s' k2 (e3.trans h2) (fun e he => h3 e (by simp at he ⊢; tauto))
      (fun g hg => h4 g (by simp [hg])) (by omega) h6
    constructor
    · simp only [List.map_cons, grp, afterAll]
      rw [htake, List.flatten_cons, List.foldl_append, k1]
      exact i1
    · simp only [List.map_cons, grp, Proper]
      refine ⟨by omega, by simp only [rcv]; omega, .inr ⟨by simp only [rcv]; omega, ?_, ?_⟩, ?_⟩
      · simp only [rcv]; rw [hfl, h2]; exact Dvd.intro_left _ rfl
      · simp only [rcv]; rw [hfl, h2]; exact Nat.mul_le_mul_right _ (by omega)
      · rw [htake, k1]; exact i2

/-- Distinct indexes of a box. -/
theorem nodup_boxPts (d : Dims) (b : Box) (h : Mem d b b.lo) : (boxPts d b).Nodup := by
  have hspan : ∀ n lo, (spanN n lo).Nodup := by
    intro n
    induction n with
    | zero => intro _; exact List.nodup_nil
    | succ n ih =>
      intro lo
      simp only [spanN, List.nodup_cons]
      exact ⟨by rw [mem_spanN]; omega, ih _⟩
  cases he : newLexEntry d b with
  | some e =>
    have hg := newLexEntry_good he
    have hb := newLexEntry_box he
    have := offsets_dense hg
    rw [hb] at this
    have h2 := hspan e.count 0
    rw [← this] at h2
    exact List.Nodup.of_map _ h2
  | none =>
    exfalso
    have hsz := length_boxPts d b ((not_isEmpty_iff d b).2 ⟨_, h⟩)
    unfold newLexEntry at he
    simp only [hsz] at he
    cases d
    · rw [mem_d1] at h; simp [Dims.toNat] at he; omega
    · rw [mem_d2] at h; simp [Dims.toNat] at he; omega
    · rw [mem_d3] at h; simp [Dims.toNat] at he; omega

theorem nodup_cells {m : LMap} (h : m.WF) {b : Box} (hb : Mem m.lay.dims b b.lo)
    (hs : SubsetOf m.lay.dims b m.required) : ((boxPts m.lay.dims b).map m.cell).Nodup := by
  refine List.Nodup.map_on ?_ (nodup_boxPts _ _ hb)
  intro p hp q hq heq
  rw [mem_boxPts] at hp hq
  have := cell_inj h (hs _ hp.1) (hs _ hq.1) heq
  rw [hp.2, hq.2] at this
  exact this

end Laik.Tcp
