import Verif.Model.TcpDataLemmas
/-!
# Lemmas on `data` commands
-/

namespace Laik.Tcp
open Laik.Lay Laik.Codec

/-- Printable character: survives the way over the wire. -/
def Plain (c : Char) : Prop := 32 ≤ c.toNat ∧ c.toNat < 127

instance (c : Char) : Decidable (Plain c) := by unfold Plain; infer_instance

theorem plain_digits (n : Nat) : ∀ c ∈ digits n, Plain c := by
  intro c hc
  have := digits_all n c hc
  simp only [isDigit, Bool.and_eq_true, decide_eq_true_eq] at this
  exact ⟨by omega, by omega⟩

theorem plain_istr (d : Dims) (i : Idx) : ∀ c ∈ istr d i, Plain c := by
  have hs : Plain '/' := by decide
  cases d <;> intro c hc <;> simp only [istr, List.mem_append, List.mem_cons] at hc
  · exact plain_digits _ c hc
  · rcases hc with hc | rfl | hc
    exacts [plain_digits _ c hc, hs, plain_digits _ c hc]
  · rcases hc with hc | rfl | hc | rfl | hc
    exacts [plain_digits _ c hc, hs, plain_digits _ c hc, hs, plain_digits _ c hc]

theorem istr_canon (d : Dims) (i : Idx) : istr d (canon d i) = istr d i := by
  cases d <;> simp [istr, canon, Dims.toNat]

theorem hexChar_spec : ∀ n < 16, Plain (hexChar n) ∧ hexChar n ≠ ' ' ∧ hexVal (hexChar n) = some n := by
  decide

theorem plain_hexStr : ∀ (e : Bytes), ∀ c ∈ hexStr e, Plain c := by
  intro e
  induction e with
  | nil => intro c hc; cases hc
  | cons b bs ih =>
    intro c hc
    have hb := b.toNat_lt
    simp only [hexStr, List.mem_cons] at hc
    rcases hc with rfl | rfl | rfl | hc
    · decide
    · exact (hexChar_spec _ (by omega)).1
    · exact (hexChar_spec _ (by omega)).1
    · exact ih c hc

theorem plain_posStr (n : Nat) (d : Dims) (i : Idx) : ∀ c ∈ posStr n d i, Plain c := by
  intro c hc
  simp only [posStr, List.mem_cons, List.mem_append, List.mem_nil_iff, or_false] at hc
  rcases hc with rfl | hc | rfl | hc | rfl
  · decide
  · exact plain_digits _ c hc
  · decide
  · exact plain_istr _ _ c hc
  · decide

theorem plain_dataStr (n : Nat) (d : Dims) (i : Idx) (e : Bytes) : ∀ c ∈ dataStr n d i e, Plain c := by
  intro c hc
  simp only [dataStr, List.mem_cons, List.mem_append] at hc
  rcases hc with rfl | rfl | rfl | rfl | rfl | hc | rfl | hc | hc
  · decide
  · decide
  · decide
  · decide
  · decide
  · exact plain_digits _ c hc
  · decide
  · exact plain_posStr _ _ _ c hc
  · exact plain_hexStr _ c hc

/-- Bytes of printable text. -/
theorem toBytes_plain {s : List Char} (h : ∀ c ∈ s, Plain c) :
    (10 : UInt8) ∉ toBytes s ∧ (4 : UInt8) ∉ toBytes s ∧ (toBytes s).map blankCR = toBytes s ∧
    (toBytes s).map (fun c => Char.ofNat c.toNat) = s := by
  have key : ∀ c ∈ s, (UInt8.ofNat c.toNat).toNat = c.toNat := by
    intro c hc
    have := h c hc
    unfold Plain at this
    rw [UInt8.toNat_ofNat']
    omega
  have hne : ∀ (k : UInt8), k.toNat < 32 → ∀ c ∈ s, UInt8.ofNat c.toNat ≠ k := by
    intro k hk c hc heq
    have h1 := key c hc
    rw [heq] at h1
    have := (h c hc).1
    omega
  refine ⟨?_, ?_, ?_, ?_⟩
  · intro hm
    obtain ⟨c, hc, he⟩ := List.mem_map.1 hm
    exact hne 10 (by decide) c hc he
  · intro hm
    obtain ⟨c, hc, he⟩ := List.mem_map.1 hm
    exact hne 4 (by decide) c hc he
  · unfold toBytes
    rw [List.map_map]
    apply List.map_congr_left
    intro c hc
    simp only [Function.comp, blankCR]
    rw [if_neg (hne 13 (by decide) c hc)]
  · unfold toBytes
    rw [List.map_map]
    conv_rhs => rw [← List.map_id s]
    apply List.map_congr_left
    intro c hc
    simp only [Function.comp, key c hc, id]
    exact Char.ofNat_toNat c

theorem hexLoop_spec (len : Nat) : ∀ (bs : Bytes) (b : UInt8) (acc : Bytes),
    acc.length + 1 + bs.length = len →
    hexLoop len (hexChar (b.toNat / 16) :: hexChar (b.toNat % 16) :: hexStr bs) 0 acc =
      some (acc ++ b :: bs) := by
  intro bs
  induction bs with
  | nil =>
    intro b acc h
    have hb := b.toNat_lt
    obtain ⟨-, h1, h2⟩ := hexChar_spec (b.toNat / 16) (by omega)
    obtain ⟨-, h3, h4⟩ := hexChar_spec (b.toNat % 16) (by omega)
    simp only [hexLoop, h1, h2, h3, h4, if_false, hexStr]
    simp only [List.length_nil] at h
    rw [if_pos (by omega)]
    have : 16 * (16 * 0 + b.toNat / 16) + b.toNat % 16 = b.toNat := by omega
    rw [this]
    simp
  | cons b2 bs ih =>
    intro b acc h
    have hb := b.toNat_lt
    obtain ⟨-, h1, h2⟩ := hexChar_spec (b.toNat / 16) (by omega)
    obtain ⟨-, h3, h4⟩ := hexChar_spec (b.toNat % 16) (by omega)
    simp only [List.length_cons] at h
    have hv : UInt8.ofNat (16 * (16 * 0 + b.toNat / 16) + b.toNat % 16) = b := by
      have : 16 * (16 * 0 + b.toNat / 16) + b.toNat % 16 = b.toNat := by omega
      rw [this]; simp
    rw [hexLoop, if_neg h1, h2]
    simp only
    rw [hexLoop, if_neg h3, h4]
    simp only
    rw [hexStr, hexLoop, if_pos rfl, if_pos (by omega), if_neg (by omega), hv,
      ih b2 (acc ++ [b]) (by simp; omega)]
    simp

theorem stripPrefix_append (p s : List Char) : stripPrefix p (p ++ s) = some s := by
  induction p with
  | nil => cases s <;> rfl
  | cons c p ih => simp [stripPrefix, ih]

theorem scanInt_blank (s : List Char) : scanInt (' ' :: s) = scanInt s := by
  unfold scanInt
  rw [List.dropWhile_cons_of_pos (by decide)]

/-- The receiver reads back the element from the text of the sender. -/
theorem gotData_dataStr {r : Rcv} (h : RInv r) (hr : r.roff < r.rcount) {e : Bytes}
    (he : e.length = r.esize) (h0 : 0 < r.esize) (h1 : r.esize < 100)
    (hf : istrFits r.map.lay.dims r.idx) :
    gotData r (dataStr r.roff r.map.lay.dims r.idx e) = (storeElem r e).1 := by
  have hw : scanWord20 (dataStr r.roff r.map.lay.dims r.idx e) = some (' ' ::
      (digits e.length ++ ' ' :: (posStr r.roff r.map.lay.dims r.idx ++ hexStr e))) := by
    unfold scanWord20 dataStr
    rw [List.dropWhile_cons_of_neg (by decide)]
    simp only [List.takeWhile_cons, show isSpace 'd' = false from by decide,
      show isSpace 'a' = false from by decide, show isSpace 't' = false from by decide,
      show isSpace ' ' = true from by decide, Bool.not_false, Bool.not_true, if_true]
    simp
  have hi : scanInt (' ' ::
      (digits e.length ++ ' ' :: (posStr r.roff r.map.lay.dims r.idx ++ hexStr e))) =
      some ((e.length : Int), ' ' :: (posStr r.roff r.map.lay.dims r.idx ++ hexStr e)) := by
    rw [scanInt_blank, scanInt_digits _ _ ⟨' ', _, rfl, by decide⟩]
  have hd : (' ' :: (posStr r.roff r.map.lay.dims r.idx ++ hexStr e)).dropWhile isSpace =
      posStr r.roff r.map.lay.dims r.idx ++ hexStr e := by
    rw [List.dropWhile_cons_of_pos (by decide)]
    unfold posStr
    rw [List.cons_append, List.dropWhile_cons_of_neg (by decide)]
  have hp : parseElem r (e.length : Int) (posStr r.roff r.map.lay.dims r.idx ++ hexStr e) = some e := by
    unfold parseElem
    rw [if_pos ⟨by rw [he], hf⟩]
    cases e with
    | nil => simp at he; omega
    | cons b bs =>
      have hb := b.toNat_lt
      have hs : skipPos (posStr r.roff r.map.lay.dims r.idx)
          (posStr r.roff r.map.lay.dims r.idx ++ hexStr (b :: bs)) =
          some (hexChar (b.toNat / 16) :: hexChar (b.toNat % 16) :: hexStr bs) := by
        unfold skipPos
        rw [if_pos (by simp [posStr]), stripPrefix_append]
        simp only [hexStr, Option.map_some]
        rw [List.dropWhile_cons_of_pos (by decide), List.dropWhile_cons_of_neg]
        have := (hexChar_spec (b.toNat / 16) (by omega)).2.1
        simpa using this
      simp only [hs]
      rw [if_pos h1, hexLoop_spec _ bs b [] (by simp at he ⊢; omega)]
      simp [he]
  unfold gotData
  simp only [hw, hi, hd, hp]
  rw [if_neg (by omega)]
  obtain ⟨s', g1, -⟩ := storeElem_spec h hr e
  simp only [g1, if_true]

/-- The line of the sender makes the receiver store the element. -/
theorem line_dataStr {r : Rcv} (h : RInv r) (hr : r.roff < r.rcount) {e : Bytes}
    (he : e.length = r.esize) (h0 : 0 < r.esize) (h1 : r.esize < 100)
    (hf : istrFits r.map.lay.dims r.idx) :
    takeLine rcv r (toBytes (dataStr r.roff r.map.lay.dims r.idx e)) = (rcv.elem r e).1 := by
  unfold takeLine
  obtain ⟨-, -, h3, h4⟩ := toBytes_plain (plain_dataStr r.roff r.map.lay.dims r.idx e)
  rw [if_neg (by simp [toBytes, dataStr]), h3]
  simp only [rcv, h4]
  rw [if_pos (by simp [dataStr]), gotData_dataStr h hr he h0 h1 hf]

/-- The lines for a list of points, from position `n` of the traversal. -/
def lines (d : Dims) (val : Idx → Bytes) : Nat → List Idx → List Msg
  | _, [] => []
  | n, p :: ps => .line (toBytes (dataStr n d p (val p))) :: lines d val (n + 1) ps

/-- Text for a point fits the buffers of the sender. -/
def TextFits (d : Dims) (n : Nat) (p : Idx) (e : Bytes) : Prop :=
  istrFits d p ∧ (dataStr n d p e).length + 1 ≤ 100

/-- All text for a list of points fits. -/
def AllFit (d : Dims) (val : Idx → Bytes) : Nat → List Idx → Prop
  | _, [] => True
  | n, p :: ps => TextFits d n p (val p) ∧ AllFit d val (n + 1) ps

theorem emitAll_text {d : Dims} {val : Idx → Bytes} : ∀ (pts : List Idx) (out : Bytes) (n : Nat),
    AllFit d val n pts →
    emitAll (sendText d) val out n pts = .ok (out ++ wire (lines d val n pts)) := by
  intro pts
  induction pts with
  | nil => intro out n _; simp [emitAll, lines, wire]
  | cons p ps ih =>
    intro out n h
    have hst : sendText d out n p (val p) = .ok (out ++ (toBytes (dataStr n d p (val p)) ++ [10])) := by
      unfold sendText
      rw [if_pos (show _ ∧ _ from h.1)]
    simp only [emitAll, hst, lines, wire, Msg.bytes]
    rw [ih _ _ h.2]
    simp

theorem dataStr_canon (n : Nat) (d : Dims) (i : Idx) (e : Bytes) :
    dataStr n d (canon d i) e = dataStr n d i e := by
  unfold dataStr posStr
  rw [istr_canon]

theorem sendText_canon (d : Dims) (out : Bytes) (n : Nat) (i : Idx) (e : Bytes) :
    sendText d out n (canon d i) e = sendText d out n i e := by
  have h : istrFits d (canon d i) ↔ istrFits d i := by unfold istrFits; rw [istr_canon]
  unfold sendText
  rw [dataStr_canon]
  by_cases hc : istrFits d i ∧ (dataStr n d i e).length + 1 ≤ 100
  · rw [if_pos hc, if_pos ⟨h.2 hc.1, hc.2⟩]
  · rw [if_neg hc, if_neg (fun hn => hc ⟨h.1 hn.1, hn.2⟩)]

theorem hexStr_length (e : Bytes) : (hexStr e).length = 3 * e.length := by
  induction e with
  | nil => rfl
  | cons b bs ih => simp [hexStr, ih]; omega

/-- Elements of text that fits have less than 100 bytes. -/
theorem textFits_size {d : Dims} {n : Nat} {p : Idx} {e : Bytes} (h : TextFits d n p e) :
    e.length < 100 := by
  have := h.2
  simp [dataStr, posStr, hexStr_length] at this
  omega

/-- The lines for all outstanding points are taken in element by element. -/
theorem afterAll_lines {z : Nat} (hz : 0 < z) {val : Idx → Bytes} : ∀ (pts : List Idx) (s : Rcv),
    RInv s → s.esize = z → (∀ p ∈ pts, (val p).length = z) → s.rcount - s.roff = pts.length →
    (s.roff < s.rcount →
      pts = remPts s.map.lay.dims s.range (canon s.map.lay.dims s.idx)) →
    AllFit s.map.lay.dims val s.roff pts →
    afterAll rcv s (lines s.map.lay.dims val s.roff pts) =
      (pts.map val).foldl (fun s e => (rcv.elem s e).1) s ∧
    Proper rcv rbufLen s (lines s.map.lay.dims val s.roff pts) := by
  intro pts
  induction pts with
  | nil => intro s _ _ _ _ _ _; exact ⟨rfl, trivial⟩
  | cons p ps ih =>
    intro s h1 h2 h3 h4 h5 h6
    simp only [List.length_cons] at h4
    have hr : s.roff < s.rcount := by omega
    have hpts := h5 hr
    have hp : p = canon s.map.lay.dims s.idx := by
      obtain ⟨s', g1, -, -, g4, g5⟩ := storeElem_spec h1 hr []
      by_cases hlt : s'.roff < s'.rcount
      · rw [g4 hlt] at hpts; exact (List.cons.inj hpts).1
      · rw [g5 hlt] at hpts; exact (List.cons.inj hpts).1
    have hlp := h3 p (by simp)
    have hsz := textFits_size h6.1
    have hline : takeLine rcv s (toBytes (dataStr s.roff s.map.lay.dims p (val p))) =
        (rcv.elem s (val p)).1 := by
      have hfit : istrFits s.map.lay.dims s.idx := by
        have := h6.1.1
        rw [hp] at this
        unfold istrFits at this ⊢
        rwa [istr_canon] at this
      have hd : dataStr s.roff s.map.lay.dims p (val p) =
          dataStr s.roff s.map.lay.dims s.idx (val p) := by
        conv_lhs => rw [hp]
        rw [dataStr_canon, ← hp]
      rw [hd]
      exact line_dataStr h1 hr (by omega) (by omega) (by omega) hfit
    obtain ⟨s', g1, g2, g3, g4, g5⟩ := storeElem_spec h1 hr (val p)
    have hs' : (rcv.elem s (val p)).1 = s' := by simp only [rcv, g1]
    have e1 : s'.roff = s.roff + 1 := by rw [g3]
    have e2 : s'.rcount = s.rcount := by rw [g3]
    have e3 : s'.esize = s.esize := by rw [g3]
    have e4 : s'.map = s.map := by rw [g3]
    have e5 : s'.range = s.range := by rw [g3]
    obtain ⟨i1, i2⟩ := ih s' g2 (e3.trans h2) (fun q hq => h3 q (by simp [hq])) (by omega)
      (fun hlt => by
        rw [g4 hlt] at hpts
        rw [e4, e5]
        exact (List.cons.inj hpts).2)
      (by rw [e4, e1]; exact h6.2)
    rw [e4, e1] at i1 i2
    obtain ⟨c1, c2, c3, -⟩ := toBytes_plain (plain_dataStr s.roff s.map.lay.dims p (val p))
    constructor
    · simp only [lines, afterAll, List.map_cons, List.foldl_cons]
      rw [hline, hs']
      exact i1
    · simp only [lines, Proper]
      refine ⟨?_, ?_, c1, c2, fun _ => rfl, ?_⟩
      · have := h6.1.2
        simp only [toBytes, List.length_map, rbufLen]
        omega
      · simp [toBytes, dataStr]
      · rw [hline, hs']; exact i2

theorem uLength (v : Int) : (digits (v % 2 ^ 64).toNat).length ≤ 20 :=
  digits_length_le _ 20 (by
    have h1 := Int.emod_lt_of_pos v (show (0 : Int) < 2 ^ 64 by decide)
    have h2 := Int.emod_nonneg v (show (2 : Int) ^ 64 ≠ 0 by decide)
    have h3 : (2 : Int) ^ 64 = 18446744073709551616 := by decide
    have h4 : 10 ^ 20 = 100000000000000000000 := by decide
    rw [h4]
    generalize v % 2 ^ 64 = w at h1 h2
    rw [h3] at h1
    omega) (by decide)

theorem uLength_small {v : Int} (h0 : 0 ≤ v) (h1 : v < 10 ^ 14) :
    (digits (v % 2 ^ 64).toNat).length ≤ 14 :=
  digits_length_le _ 14 (by
    have h3 : (2 : Int) ^ 64 = 18446744073709551616 := by decide
    have h4 : 10 ^ 14 = 100000000000000 := by decide
    have h5 : (10 : Int) ^ 14 = 100000000000000 := by decide
    rw [h5] at h1
    rw [h3, h4, Int.emod_eq_of_lt h0 (by omega)]
    omega) (by decide)

/-- Text of elements with at most 11 bytes fits, for all indexes with at most
two dimensions and for small ones with three. -/
theorem textFits_of_small {d : Dims} {n : Nat} {p : Idx} {e : Bytes} (hn : n < 2 ^ 31)
    (he : e.length ≤ 11)
    (hp : d = .d3 → 0 ≤ p.x ∧ p.x < 10 ^ 14 ∧ 0 ≤ p.y ∧ p.y < 10 ^ 14 ∧ 0 ≤ p.z ∧ p.z < 10 ^ 14) :
    TextFits d n p e := by
  have hi : (istr d p).length ≤ 44 := by
    cases d
    · have := uLength p.x
      simp only [istr]; omega
    · have := uLength p.x
      have := uLength p.y
      simp only [istr, List.length_append, List.length_cons]; omega
    · obtain ⟨a1, a2, a3, a4, a5, a6⟩ := hp rfl
      have := uLength_small a1 a2
      have := uLength_small a3 a4
      have := uLength_small a5 a6
      simp only [istr, List.length_append, List.length_cons]; omega
  have h1 := digits_length_le e.length 2 (by omega) (by decide)
  have h2 := digits_length_le n 10 (by omega) (by decide)
  refine ⟨by unfold istrFits; omega, ?_⟩
  simp only [dataStr, posStr, List.length_cons, List.length_append, hexStr_length, List.length_nil]
  omega

theorem allFit_of {d : Dims} {val : Idx → Bytes} : ∀ (pts : List Idx) (n : Nat),
    (∀ p ∈ pts, ∀ k < n + pts.length, TextFits d k p (val p)) → AllFit d val n pts := by
  intro pts
  induction pts with
  | nil => intro n _; trivial
  | cons p ps ih =>
    intro n h
    simp only [List.length_cons] at h
    exact ⟨h p (by simp) n (by omega), ih (n + 1) fun q hq k hk => h q (by simp [hq]) k (by omega)⟩

end Laik.Tcp
