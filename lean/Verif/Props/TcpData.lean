import Verif.Model.TcpTextLemmas
import Verif.Props.TcpFrame
/-!
# C39 Data of a range arrives completely over the TCP backend

Full statement: the receiver stores exactly the sent element bytes in order,
in binary mode (blocks) and in text mode (hex bytes).

Binary mode: proved for element sizes up to 8189 bytes and every way the
stream is cut into reads; larger elements fail an assert at the sender.
Text mode: proved as long as the text fits the buffers on the stack (always
for elements up to 11 bytes with at most two dimensions, or three and
coordinates from 0 to 10^14); beyond this the buffers overflow.
-/

namespace Laik
open Tcp Lay Codec

variable {ms mr : LMap} {b : Box} {z : Nat}

/-- The receiver is ready for the range. -/
theorem rinv_recvRange (hw : mr.WF) (hs : SubsetOf mr.lay.dims b mr.required)
    (hb : Mem mr.lay.dims b b.lo) (op : Option (Bytes → Bytes → Bytes)) (mem : Int → Bytes) :
    RInv (recvRange mr b (boxPts mr.lay.dims b).length z op mem) := by
  refine ⟨hw, hs, Nat.zero_le _, fun _ => ⟨hb, ?_⟩⟩
  simp only [recvRange]
  rw [remPts_lo hb]
  rfl

/-- Elements in order give the specified memory. -/
theorem fold_all (hw : mr.WF) (hs : SubsetOf mr.lay.dims b mr.required)
    (hb : Mem mr.lay.dims b b.lo) (op : Option (Bytes → Bytes → Bytes)) (mem : Int → Bytes)
    (val : Idx → Bytes) (hval : ∀ p, val (canon mr.lay.dims p) = val p) :
    ∃ s', ((boxPts mr.lay.dims b).map val).foldl (fun s e => (rcv.elem s e).1)
        (recvRange mr b (boxPts mr.lay.dims b).length z op mem) = s' ∧
      s'.err = false ∧ rcv.rem s' = 0 ∧
      Combined mr.lay.dims b (newElem op) val mr.cell mem s'.mem := by
  obtain ⟨s', k1, -, k3⟩ := fold_store ((boxPts mr.lay.dims b).map val) _
    (rinv_recvRange (z := z) hw hs hb op mem) (by simp [recvRange])
  have hm : s'.mem = combineAll (newElem op) mem ((boxPts mr.lay.dims b).map mr.cell)
      ((boxPts mr.lay.dims b).map val) := by
    rw [k3]; simp only [recvRange]; rw [remPts_lo hb]
  refine ⟨s', k1, by rw [k3]; rfl, ?_, ?_, ?_⟩
  · have e1 : s'.roff = (boxPts mr.lay.dims b).length := by rw [k3]; simp [recvRange]
    have e2 : s'.rcount = (boxPts mr.lay.dims b).length := by rw [k3]; rfl
    simp only [rcv, e1, e2, Nat.sub_self]
  · intro p hp
    rw [hm]
    have hmem : canon mr.lay.dims p ∈ boxPts mr.lay.dims b :=
      (mem_boxPts _ _ _).2 ⟨(mem_canon _ _ _).2 hp, canon_canon _ _⟩
    have := combineAll_at (newElem op) mr.cell val _ mem (nodup_cells hw hb hs) _ hmem
    rwa [cell_canon, hval] at this
  · intro a ha
    rw [hm]
    apply combineAll_other
    intro hin
    obtain ⟨p, hp, rfl⟩ := List.mem_map.1 hin
    exact ha p ((mem_boxPts _ _ _).1 hp).1 rfl

theorem newElem_eq (op : Option (Bytes → Bytes → Bytes)) : newElem op = Received op := by
  funext old e
  cases op <;> rfl

/-- Binary mode: the sender writes blocks, without leaving anything in its
buffer, and for all ways to cut the stream into reads, once all is read, the
receiver combined each index of the range with the value the sender has for
it, and nothing else changed. -/
theorem C39_binary_partial (hms : ms.WF) (hmr : mr.WF) (hd : ms.lay.dims = mr.lay.dims)
    (hss : SubsetOf mr.lay.dims b ms.required) (hsr : SubsetOf mr.lay.dims b mr.required)
    (hne : ∃ p, Mem mr.lay.dims b p) (sz : Nat) (hsz : b.size mr.lay.dims = some sz)
    (hz : 0 < z) (hz2 : z ≤ 8189)
    (smem : Int → Bytes) (hlen : ∀ p, Mem mr.lay.dims b p → (smem (ms.cell p)).length = z)
    (lid : Nat) (op : Option (Bytes → Bytes → Bytes)) (rmem : Int → Bytes) :
    ∃ out, sendRangeBin ms smem b lid sz z sz z {} = .ok { out := out } ∧
      ∀ ks : List Nat, out.length ≤ ks.length →
        ∃ c', gotAll rcv { st := recvRange mr b sz z op rmem } ks out = .ok (c', []) ∧
          c'.buf = [] ∧ c'.bin = 0 ∧ c'.st.err = false ∧ rcv.rem c'.st = 0 ∧
          Combined mr.lay.dims b (Received op) (fun p => smem (ms.cell p)) mr.cell rmem c'.st.mem := by
  have hemp : b.isEmpty mr.lay.dims = false := (not_isEmpty_iff _ _).2 hne
  have hlo : Mem mr.lay.dims b b.lo := mem_lo_of_nonempty _ _ hemp
  have hszl : sz = (boxPts mr.lay.dims b).length := by
    rw [length_boxPts _ _ hemp] at hsz; simpa using hsz.symm
  have hnil : boxPts mr.lay.dims b ≠ [] := by
    rw [← remPts_lo hlo]; exact remPts_ne_nil hlo
  have hval : ∀ p ∈ boxPts mr.lay.dims b, (smem (ms.cell p)).length = z :=
    fun p hp => hlen p ((mem_boxPts _ _ _).1 hp).1
  obtain ⟨groups, last, s', e1, e2, e3, e4, e5, e6, e7⟩ := emitAll_bin (lid := lid) hz hz2
    (val := fun p => smem (ms.cell p)) (boxPts mr.lay.dims b) {} 0 [] hval rfl (by simp)
    (.inl ⟨rfl, rfl⟩)
  have hloop : sendLoop ms.lay.dims b ms.addr smem (sendBin lid) (sz + 1) {} 0 b.lo =
      .ok (s', sz) := by
    rw [sendLoop_spec (cell := ms.cell) (fun p hp => addr_cell hms (by rw [hd] at hp ⊢; exact hss p hp))
      (cell_canon ms) (fun _ _ _ _ => rfl) _ _ _ _ (by rw [hd]; exact hlo)
      (by rw [hd, remPts_lo hlo]; omega)]
    rw [hd, remPts_lo hlo, e1, hszl]
    simp
  have hlast : last ≠ [] ∧ s'.toLID = some lid := by
    rcases e7 with ⟨h1, h2⟩ | ⟨h1, h2⟩
    · exfalso
      subst h2
      rw [List.append_nil, List.nil_append] at e4
      have : s'.data = [] := by rw [e3]; rfl
      -- the last element put into the buffer is still there
      have hl2 : ∀ (pts : List Idx) (s : SBuf) (n : Nat) (r : SBuf), pts ≠ [] →
          emitAll (sendBin lid) (fun p => smem (ms.cell p)) s n pts = .ok r → r.toLID = some lid := by
        intro pts
        induction pts with
        | nil => intro _ _ _ h; exact absurd rfl h
        | cons p ps ih =>
          intro s n r _ h
          simp only [emitAll] at h
          cases hs : sendBin lid s n p (smem (ms.cell p)) with
          | error e => rw [hs] at h; cases h
          | ok s1 =>
            rw [hs] at h
            have hs1 : s1.toLID = some lid := by
              have hput : ∀ s e r, binPut lid e s = .ok r → r.toLID = some lid := by
                intro s e r hr
                unfold binPut at hr
                split at hr
                · split at hr
                  · injection hr with hr; rw [← hr]
                  · cases hr
                · cases hr
              unfold sendBin at hs
              split at hs
              · cases hf : binFlush lid s with
                | error e => rw [hf] at hs; cases hs
                | ok s2 => rw [hf] at hs; exact hput _ _ _ hs
              · exact hput _ _ _ hs
            cases ps with
            | nil => injection h with h; rw [← h]; exact hs1
            | cons q qs => exact ih _ _ _ (by simp) h
      have := hl2 _ _ _ _ hnil e1
      rw [h1] at this
      cases this
    · exact ⟨h2, h1⟩
  have hout : sendRangeBin ms smem b lid sz z sz z {} =
      .ok { out := wire ((groups ++ [last]).map grp) } := by
    unfold sendRangeBin
    rw [if_pos ⟨rfl, rfl⟩, hloop]
    simp only [if_true, binFlush, hlast.2]
    congr 2
    rw [List.map_append, wire_append, e2]
    simp [wire, grp, Msg.bytes, e3]
  refine ⟨_, hout, ?_⟩
  intro ks hks
  have hfl : (groups ++ [last]).flatten =
      (boxPts mr.lay.dims b).map (fun p => smem (ms.cell p)) := by
    simpa using e4
  have hlenall : ∀ e ∈ (groups ++ [last]).flatten, e.length = z := by
    rw [hfl]
    intro e he
    obtain ⟨p, hp, rfl⟩ := List.mem_map.1 he
    exact hval p hp
  obtain ⟨a1, a2⟩ := afterAll_groups hz (groups ++ [last])
    (recvRange mr b (boxPts mr.lay.dims b).length z op rmem)
    (rinv_recvRange hmr hsr hlo op rmem) rfl hlenall
    (by
      intro g hg
      rcases List.mem_append.1 hg with hg | hg
      · exact e5 g hg
      · rw [List.mem_singleton.1 hg]; exact ⟨hlast.1, by rw [← e3]; exact e6⟩)
    (by rw [hfl]; simp [recvRange]) (by unfold rbufLen; omega)
  obtain ⟨c', g1, g2, g3, g4⟩ := C38_complete_partial (R := rcv) (Inv := RInv) rcv_counting
    (rinv_recvRange (z := z) hmr hsr hlo op rmem) a2 hks
  obtain ⟨sf, k1, k2, k3, k4⟩ := fold_all (z := z) hmr hsr hlo op rmem (fun p => smem (ms.cell p))
    (by intro p; rw [← hd, cell_canon])
  rw [hfl, k1] at a1
  rw [a1] at g2
  rw [hszl]
  refine ⟨c', g1, g3, g4, ?_, ?_, ?_⟩
  · rw [g2]; exact k2
  · rw [g2]; exact k3
  · rw [g2]; exact (newElem_eq op ▸ k4)

/-- Text mode: the same, as long as the text fits the buffers. -/
theorem C39_text_partial (hms : ms.WF) (hmr : mr.WF) (hd : ms.lay.dims = mr.lay.dims)
    (hss : SubsetOf mr.lay.dims b ms.required) (hsr : SubsetOf mr.lay.dims b mr.required)
    (hne : ∃ p, Mem mr.lay.dims b p) (sz : Nat) (hsz : b.size mr.lay.dims = some sz)
    (hsz2 : sz < 2 ^ 31) (hz : 0 < z) (hz2 : z ≤ 11)
    (hcoord : mr.lay.dims = .d3 → ∀ p, Mem mr.lay.dims b p →
      0 ≤ p.x ∧ p.x < 10 ^ 14 ∧ 0 ≤ p.y ∧ p.y < 10 ^ 14 ∧ 0 ≤ p.z ∧ p.z < 10 ^ 14)
    (smem : Int → Bytes) (hlen : ∀ p, Mem mr.lay.dims b p → (smem (ms.cell p)).length = z)
    (op : Option (Bytes → Bytes → Bytes)) (rmem : Int → Bytes) :
    ∃ out, sendRangeText ms smem b sz z sz z [] = .ok out ∧
      ∀ ks : List Nat, out.length ≤ ks.length →
        ∃ c', gotAll rcv { st := recvRange mr b sz z op rmem } ks out = .ok (c', []) ∧
          c'.buf = [] ∧ c'.bin = 0 ∧ c'.st.err = false ∧ rcv.rem c'.st = 0 ∧
          Combined mr.lay.dims b (Received op) (fun p => smem (ms.cell p)) mr.cell rmem c'.st.mem := by
  have hemp : b.isEmpty mr.lay.dims = false := (not_isEmpty_iff _ _).2 hne
  have hlo : Mem mr.lay.dims b b.lo := mem_lo_of_nonempty _ _ hemp
  have hszl : sz = (boxPts mr.lay.dims b).length := by
    rw [length_boxPts _ _ hemp] at hsz; simpa using hsz.symm
  have hval : ∀ p ∈ boxPts mr.lay.dims b, (smem (ms.cell p)).length = z :=
    fun p hp => hlen p ((mem_boxPts _ _ _).1 hp).1
  have hfit : AllFit mr.lay.dims (fun p => smem (ms.cell p)) 0 (boxPts mr.lay.dims b) := by
    apply allFit_of
    intro p hp k hk
    exact textFits_of_small (by omega) (by rw [hval p hp]; exact hz2)
      (fun h => hcoord h p ((mem_boxPts _ _ _).1 hp).1)
  have hout : sendRangeText ms smem b sz z sz z [] =
      .ok (wire (lines mr.lay.dims (fun p => smem (ms.cell p)) 0 (boxPts mr.lay.dims b))) := by
    unfold sendRangeText
    rw [if_pos ⟨rfl, rfl⟩,
      sendLoop_spec (cell := ms.cell) (fun p hp => addr_cell hms (by rw [hd] at hp ⊢; exact hss p hp))
      (cell_canon ms) (fun s n i e => sendText_canon _ s n i e) _ _ _ _ (by rw [hd]; exact hlo)
      (by rw [hd, remPts_lo hlo]; omega)]
    rw [hd, remPts_lo hlo, emitAll_text _ _ _ hfit, hszl]
    simp
  refine ⟨_, hout, ?_⟩
  intro ks hks
  obtain ⟨a1, a2⟩ := afterAll_lines hz (val := fun p => smem (ms.cell p)) (boxPts mr.lay.dims b)
    (recvRange mr b (boxPts mr.lay.dims b).length z op rmem)
    (rinv_recvRange hmr hsr hlo op rmem) rfl hval (by simp [recvRange])
    (fun _ => by simp only [recvRange]; rw [remPts_lo hlo]) hfit
  obtain ⟨c', g1, g2, g3, g4⟩ := C38_complete_partial (R := rcv) (Inv := RInv) rcv_counting
    (rinv_recvRange (z := z) hmr hsr hlo op rmem) a2 hks
  obtain ⟨sf, k1, k2, k3, k4⟩ := fold_all (z := z) hmr hsr hlo op rmem (fun p => smem (ms.cell p))
    (by intro p; rw [← hd, cell_canon])
  have e1 : (recvRange mr b (boxPts mr.lay.dims b).length z op rmem).map = mr := rfl
  have e2 : (recvRange mr b (boxPts mr.lay.dims b).length z op rmem).roff = 0 := rfl
  rw [e1, e2, k1] at a1
  rw [e1, e2] at g2
  rw [a1] at g2
  rw [hszl]
  refine ⟨c', g1, g3, g4, ?_, ?_, ?_⟩
  · rw [g2]; exact k2
  · rw [g2]; exact k3
  · rw [g2]; exact (newElem_eq op ▸ k4)

/-- Binary mode cannot send elements of more than 8189 bytes: an assert fails
at the first one. -/
theorem C39_big_element (m : LMap) (mem : Int → Bytes) (b : Box) (lid sz z : Nat)
    (hbig : 8189 < (mem (m.cell b.lo)).length) :
    ∀ r, sendRangeBin m mem b lid sz z sz z {} ≠ .ok r := by
  intro r h
  unfold sendRangeBin at h
  rw [if_pos ⟨rfl, rfl⟩] at h
  simp only [sendLoop] at h
  cases ha : m.addr b.lo with
  | none => simp only [ha] at h; cases h
  | some a =>
    have hc : m.cell b.lo = a := by simp [LMap.cell, ha]
    rw [hc] at hbig
    have : sendBin lid {} 0 b.lo (mem a) = .error .assert := by
      unfold sendBin
      rw [if_pos (by simp [sbufLen]; omega)]
      simp [binFlush, Except.bind]
    simp only [ha, this] at h
    cases h

/-- Text mode overflows the buffer of the sender for elements of 30 bytes and
more. -/
theorem C39_text_overflow (m : LMap) (mem : Int → Bytes) (b : Box) (sz z : Nat)
    (hbig : 30 ≤ (mem (m.cell b.lo)).length) :
    ∀ r, sendRangeText m mem b sz z sz z [] ≠ .ok r := by
  intro r h
  unfold sendRangeText at h
  rw [if_pos ⟨rfl, rfl⟩] at h
  simp only [sendLoop] at h
  cases ha : m.addr b.lo with
  | none => simp only [ha] at h; cases h
  | some a =>
    have hc : m.cell b.lo = a := by simp [LMap.cell, ha]
    rw [hc] at hbig
    have : sendText m.lay.dims [] 0 b.lo (mem a) = .error .overflow := by
      unfold sendText
      rw [if_neg]
      intro ⟨_, h2⟩
      have h3 : 1 ≤ (digits (mem a).length).length := List.length_pos_iff.2 (digits_ne_nil _)
      have h4 : 1 ≤ (digits 0).length := List.length_pos_iff.2 (digits_ne_nil _)
      simp only [dataStr, posStr, List.length_cons, List.length_append, hexStr_length,
        List.length_nil] at h2
      omega
    simp only [ha, this] at h
    cases h

/-- Even one byte per element overflows the buffer of `istr` for three large
coordinates. -/
theorem C39_istr_overflow : ¬ istrFits .d3 ⟨10 ^ 18, 10 ^ 18, 10 ^ 18⟩ ∧
    ¬ istrFits .d3 ⟨-1, -1, -1⟩ := by
  decide +kernel

/-! ### Examples -/

namespace C39ex
open Laik.Lay

def bx : Box := ⟨⟨1, 5, 0⟩, ⟨3, 7, 0⟩⟩
def bigBx : Box := ⟨⟨0, 4, 0⟩, ⟨4, 8, 0⟩⟩
def lS : LexLayout := ⟨.d2, 4, [⟨bx, 4, 1, 2, 0⟩]⟩
def lR : LexLayout := ⟨.d2, 16, [⟨bigBx, 16, 1, 4, 0⟩]⟩
def mS : LMap := ⟨lS, 0, 0, 0, bx, bx⟩
def mR : LMap := ⟨lR, 0, 100, 100, bigBx, bigBx⟩
def smem (a : Int) : Bytes := [UInt8.ofNat a.toNat, 66, 10]

theorem wfS : mS.WF := ⟨by decide, _, rfl, fun _ h => h⟩
theorem wfR : mR.WF := ⟨by decide, _, rfl, fun _ h => h⟩
theorem sub : SubsetOf .d2 bx bigBx := by
  intro p hp
  rw [mem_d2] at hp ⊢
  simp only [bx, bigBx] at hp ⊢
  omega
theorem ne : ∃ p, Mem .d2 bx p := ⟨⟨1, 5, 0⟩, by rw [mem_d2]; decide⟩

/-- Four elements of three bytes, with bytes which look like a block header
and a line end, into a larger mapping, with a reduction. -/
example (op : Option (Bytes → Bytes → Bytes)) (rmem : Int → Bytes) :
    ∃ out, sendRangeBin mS smem bx 1 4 3 4 3 {} = .ok { out := out } ∧
      ∀ ks : List Nat, out.length ≤ ks.length →
        ∃ c', gotAll rcv { st := recvRange mR bx 4 3 op rmem } ks out = .ok (c', []) ∧
          c'.buf = [] ∧ c'.bin = 0 ∧ c'.st.err = false ∧ rcv.rem c'.st = 0 ∧
          Combined .d2 bx (Received op) (fun p => smem (mS.cell p)) mR.cell rmem c'.st.mem :=
  C39_binary_partial wfS wfR rfl (fun _ h => h) sub ne 4 (by decide) (by decide) (by decide) smem
    (fun _ _ => rfl) 1 op rmem

example (op : Option (Bytes → Bytes → Bytes)) (rmem : Int → Bytes) :
    ∃ out, sendRangeText mS smem bx 4 3 4 3 [] = .ok out ∧
      ∀ ks : List Nat, out.length ≤ ks.length →
        ∃ c', gotAll rcv { st := recvRange mR bx 4 3 op rmem } ks out = .ok (c', []) ∧
          c'.buf = [] ∧ c'.bin = 0 ∧ c'.st.err = false ∧ rcv.rem c'.st = 0 ∧
          Combined .d2 bx (Received op) (fun p => smem (mS.cell p)) mR.cell rmem c'.st.mem :=
  C39_text_partial wfS wfR rfl (fun _ h => h) sub ne 4 (by decide) (by decide) (by decide)
    (by decide) (by intro h; cases h) smem (fun _ _ => rfl) op rmem

/-- Text of the second element. -/
example : String.ofList (dataStr 1 .d2 ⟨2, 5, 0⟩ (smem 1)) = "data 3 (1:2/5) 01 42 0a" := by
  decide +kernel

/-- What is on the wire. -/
example : sendRangeBin mS smem bx 1 4 3 4 3 {} =
    .ok { out := [66, 12, 0, 0, 66, 10, 1, 66, 10, 2, 66, 10, 3, 66, 10] } := by
  decide +kernel

/-- Hypotheses of the overflow theorems. -/
example : 8189 < ((fun _ => List.replicate 8190 0 : Int → Bytes) (mS.cell bx.lo)).length := by
  rw [List.length_replicate]; decide
example : 30 ≤ ((fun _ => List.replicate 32 7 : Int → Bytes) (mS.cell bx.lo)).length := by simp

end C39ex

end Laik
