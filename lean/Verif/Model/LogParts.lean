import Verif.Model.LogLemmas
/-! # Log output: the lines show the message -/

namespace Laik.Lg
open Laik Laik.LogSpec

/-- Start of the text of a line. -/
def tOff (b : Bytes) (off1 : Nat) (nl : Bool) : Nat := if nl then skip b off1 else off1

/-- Indentation of the line of the message. -/
def tSp (b : Bytes) (off1 sp : Nat) (nl : Bool) : Nat := if nl then skip b off1 - off1 else sp

/-- End of the text of a line. -/
def tEnd (b : Bytes) (off1 sp : Nat) (nl : Bool) : Nat × Bool :=
  scan b (tSp b off1 sp nl) (tOff b off1 nl) (tOff b off1 nl) 0

/-- A line. -/
def tLine (b : Bytes) (off1 sp : Nat) (nl : Bool) : Line :=
  ⟨!nl, if nl then tSp b off1 sp nl else tSp b off1 sp nl + 4,
    (b.drop (tOff b off1 nl)).take ((tEnd b off1 sp nl).1 - tOff b off1 nl)⟩

/-- Start of the next line. -/
def tNext (b : Bytes) (off1 sp : Nat) (nl : Bool) : Nat :=
  if (tEnd b off1 sp nl).1 < b.length then (tEnd b off1 sp nl).1 + 1 else (tEnd b off1 sp nl).1

theorem parts_cons (b : Bytes) (fuel off1 sp : Nat) (nl : Bool) (h : off1 < b.length) :
    parts b (fuel + 1) off1 sp nl = tLine b off1 sp nl ::
      parts b fuel (tNext b off1 sp nl) (tSp b off1 sp nl) (tEnd b off1 sp nl).2 := by
  conv => lhs; unfold parts
  rw [if_pos h]
  cases nl <;> rfl

theorem parts_nil (b : Bytes) (fuel off1 sp : Nat) (nl : Bool) (h : ¬ off1 < b.length) :
    parts b fuel off1 sp nl = [] := by
  cases fuel with
  | zero => rfl
  | succ f => unfold parts; rw [if_neg h]

theorem tEnd_ok {b : Bytes} {off1 : Nat} {nl : Bool} (h : At b off1 nl) (sp : Nat) :
    ScanOK b (tSp b off1 sp nl) (tOff b off1 nl) (tEnd b off1 sp nl) :=
  scan_of_at h _

theorem tOff_ge {b : Bytes} {off1 : Nat} {nl : Bool} (h : At b off1 nl) : off1 ≤ tOff b off1 nl := by
  have := skip_le b off1 h.le
  unfold tOff; split <;> omega

theorem tNext_gt {b : Bytes} {off1 : Nat} {nl : Bool} (h : At b off1 nl) (sp : Nat) (hl : off1 < b.length) :
    off1 < tNext b off1 sp nl ∧ tNext b off1 sp nl ≤ b.length := by
  have h1 := (tEnd_ok h sp).ge
  have h2 := (tEnd_ok h sp).le
  have h3 := tOff_ge h
  unfold tNext
  split <;> omega

theorem tLine_text_nl {b : Bytes} {off1 : Nat} {nl : Bool} (h : At b off1 nl) (sp : Nat) :
    10 ∉ (tLine b off1 sp nl).text := by
  intro hm
  have ok := tEnd_ok h sp
  have h1 := ok.ge
  have h2 := ok.le
  obtain ⟨j, h3, h4, h5⟩ := mem_slice hm (by omega)
  exact ok.nonl j h3 (by omega) h5

theorem tLine_len {b : Bytes} {off1 : Nat} {nl : Bool} (h : At b off1 nl) (sp : Nat) :
    (tLine b off1 sp nl).text.length = (tEnd b off1 sp nl).1 - tOff b off1 nl := by
  have ok := tEnd_ok h sp
  have h1 := ok.ge
  have h2 := ok.le
  unfold tLine
  rw [List.length_take, List.length_drop]
  omega

theorem tLine_get {b : Bytes} {off1 : Nat} {nl : Bool} (h : At b off1 nl) (sp i : Nat)
    (hi : i < (tEnd b off1 sp nl).1 - tOff b off1 nl) :
    (tLine b off1 sp nl).text[i]? = some (b.getD (tOff b off1 nl + i) 0) := by
  have ok := tEnd_ok h sp
  have h1 := ok.ge
  have h2 := ok.le
  exact slice_get hi (by omega)

/-- The message from the start of a line: the line and the rest. -/
theorem drop_line {b : Bytes} {off1 : Nat} {nl : Bool} (h : At b off1 nl) (sp : Nat) :
    b.drop off1 = (tLine b off1 sp nl).piece ++ b.drop (tEnd b off1 sp nl).1 := by
  have ok := tEnd_ok h sp
  have h1 := ok.ge
  have h3 : b.drop (tOff b off1 nl) = (tLine b off1 sp nl).text ++ b.drop (tEnd b off1 sp nl).1 := by
    unfold tLine
    conv => lhs; rw [← List.take_append_drop ((tEnd b off1 sp nl).1 - tOff b off1 nl) (b.drop (tOff b off1 nl))]
    rw [List.drop_drop, show tOff b off1 nl + ((tEnd b off1 sp nl).1 - tOff b off1 nl) = (tEnd b off1 sp nl).1 by omega]
  cases nl with
  | false =>
    unfold Line.piece
    rw [show (tLine b off1 sp false).cont = true from rfl, if_pos rfl, List.nil_append, ← h3]
    rfl
  | true =>
    unfold Line.piece
    rw [show (tLine b off1 sp true).cont = false from rfl, if_neg (by simp), List.append_assoc, ← h3]
    exact skip_take b off1

theorem tLine_wrapped {b : Bytes} {off1 : Nat} {nl : Bool} (h : At b off1 nl) (sp : Nat) :
    Wrapped (tLine b off1 sp nl) ∧
      ∀ a w, (tLine b off1 sp nl).text = a ++ 32 :: w → tSp b off1 sp nl + a.length ≤ 100 := by
  have ok := tEnd_ok h sp
  have h1 := ok.ge
  have h2 := ok.le
  have key : ∀ a w, (tLine b off1 sp nl).text = a ++ 32 :: w → tSp b off1 sp nl + a.length ≤ 100 := by
    intro a w ht
    have hl := tLine_len h sp
    rw [ht] at hl
    simp only [List.length_append, List.length_cons] at hl
    have hg := tLine_get h sp a.length (by omega)
    rw [ht, List.getElem?_append_right (Nat.le_refl _), Nat.sub_self] at hg
    have hg : b.getD (tOff b off1 nl + a.length) 0 = 32 := by simpa using hg.symm
    have := ok.blanks _ (by omega) (by omega) hg
    omega
  refine ⟨?_, key⟩
  intro a w ht _
  have := key a w ht
  unfold Line.piece
  rw [ht]
  cases nl with
  | false =>
    simp [tLine]
    omega
  | true =>
    simp [tLine]
    omega

/-- What holds for all lines of a message. -/
structure LineOK (b : Bytes) (l : Line) : Prop where
  wrapped : Wrapped l
  noNl : 10 ∉ l.text
  isPart : ∃ x y, b = x ++ (l.text ++ y)
  short : ∀ a w, l.text = a ++ 32 :: w → (if l.cont then l.indent - 4 else l.indent) + a.length ≤ 100
  ind : ∃ x k y, b = x ++ (List.replicate k 32 ++ y) ∧ (x = [] ∨ x.getLast? = some 10) ∧
    l.indent = if l.cont then k + 4 else k

/-- The indentation of the current line occurs in the message. -/
def HasInd (b : Bytes) (sp : Nat) : Prop :=
  ∃ x y, b = x ++ (List.replicate sp 32 ++ y) ∧ (x = [] ∨ x.getLast? = some 10)

theorem hasInd_tSp {b : Bytes} {off1 : Nat} {nl : Bool} (h : At b off1 nl) {sp : Nat} (hsp : nl = false → HasInd b sp) :
    HasInd b (tSp b off1 sp nl) := by
  cases nl with
  | false => exact hsp rfl
  | true =>
    refine ⟨b.take off1, b.drop (skip b off1), ?_, ?_⟩
    · show b = b.take off1 ++ (List.replicate (skip b off1 - off1) 32 ++ b.drop (skip b off1))
      rw [← skip_take, List.take_append_drop]
    · rcases h.fresh rfl with h0 | h0
      · left; rw [h0]; rfl
      · by_cases hz : off1 = 0
        · left; rw [hz]; rfl
        · right
          have hle := h.le
          rw [List.getLast?_eq_getElem?, List.length_take, List.getElem?_take_of_lt (by omega),
            show min off1 b.length - 1 = off1 - 1 by omega, ← h0, getD_lt (by omega), List.getElem?_eq_getElem]

theorem tLine_ok {b : Bytes} {off1 : Nat} {nl : Bool} (h : At b off1 nl) {sp : Nat} (hsp : nl = false → HasInd b sp) :
    LineOK b (tLine b off1 sp nl) := by
  have hd := drop_line h sp
  refine ⟨(tLine_wrapped h sp).1, tLine_text_nl h sp, ?_, ?_, ?_⟩
  · refine ⟨b.take off1 ++ (if (tLine b off1 sp nl).cont then [] else List.replicate (tLine b off1 sp nl).indent 32),
      b.drop (tEnd b off1 sp nl).1, ?_⟩
    conv => lhs; rw [← List.take_append_drop off1 b, hd]
    unfold Line.piece
    simp only [List.append_assoc]
  · intro a w ht
    have := (tLine_wrapped h sp).2 a w ht
    cases nl with
    | false => simpa [tLine] using this
    | true => simpa [tLine] using this
  · obtain ⟨x, y, h1, h2⟩ := hasInd_tSp h hsp
    refine ⟨x, _, y, h1, h2, ?_⟩
    cases nl <;> simp [tLine]

theorem drop_sep {b : Bytes} {i : Nat} (h : i < b.length) : b.drop i = b.getD i 0 :: b.drop (i + 1) := by
  rw [List.drop_eq_getElem_cons h, getD_lt h]

/-- With the first word of the continuation, a line would be too long. -/
theorem greedy_step {b : Bytes} {off1 : Nat} {nl : Bool} (h : At b off1 nl) (sp sp' : Nat)
    (hr : (tEnd b off1 sp nl).1 < b.length) (hc : (tEnd b off1 sp nl).2 = false) (w r : List Nat)
    (ht : (tLine b ((tEnd b off1 sp nl).1 + 1) sp' false).text = w ++ r) (hw : 32 ∉ w) (hr' : r = [] ∨ r.head? = some 32) :
    100 < tSp b off1 sp nl + (tLine b off1 sp nl).text.length + 1 + w.length := by
  have ok := tEnd_ok h sp
  have h1 := ok.ge
  obtain ⟨h32, e, he1, he2, he3, he4, he5⟩ := ok.nonl' hc hr
  rw [tLine_len h sp]
  have hn : At b ((tEnd b off1 sp nl).1 + 1) false := ⟨hr, by simp⟩
  have hl' := tLine_len hn sp'
  have ok' := tEnd_ok hn sp'
  have h1' := ok'.ge
  have h2' := ok'.le
  have hto : tOff b ((tEnd b off1 sp nl).1 + 1) false = (tEnd b off1 sp nl).1 + 1 := rfl
  rw [hto] at hl' h1'
  generalize (tEnd b off1 sp nl).1 = p at *
  generalize hp' : (tEnd b (p + 1) sp' false) = p' at *
  rw [ht, List.length_append] at hl'
  by_cases hpe : e ≤ p + 1 + w.length
  · omega
  exfalso
  rcases hr' with hr0 | hr0
  · subst hr0
    rw [List.length_nil] at hl'
    have hx := he5 p'.1 (by omega) (by omega)
    cases hb : p'.2 with
    | true => exact hx.2 (ok'.nl hb).2
    | false => exact hx.1 (ok'.nonl' hb (by omega)).1
  · cases r with
    | nil => simp at hr0
    | cons a r =>
      simp at hr0
      subst hr0
      have hg := tLine_get hn sp' w.length (by rw [hp', hto]; simp at hl'; omega)
      rw [ht, List.getElem?_append_right (Nat.le_refl _), Nat.sub_self, hto] at hg
      have hg : b.getD (p + 1 + w.length) 0 = 32 := by simpa using hg.symm
      exact (he5 _ (by omega) (by omega)).1 hg

theorem parts_spec (b : Bytes) : ∀ fuel off1 sp nl, At b off1 nl → b.length - off1 < fuel → (nl = false → HasInd b sp) →
    Shows (parts b fuel off1 sp nl) (b.drop off1) ∧ Indented (parts b fuel off1 sp nl) ∧
    Greedy (parts b fuel off1 sp nl) ∧ ∀ l ∈ parts b fuel off1 sp nl, LineOK b l := by
  intro fuel
  induction fuel with
  | zero => intro off1 sp nl h hf; omega
  | succ fuel ih =>
    intro off1 sp nl h hf hsp
    by_cases hl : off1 < b.length
    · rw [parts_cons b fuel off1 sp nl hl]
      have ok := tEnd_ok h sp
      have hnx := tNext_gt h sp hl
      have hat : At b (tNext b off1 sp nl) (tEnd b off1 sp nl).2 := at_next ok
      have hI := ih (tNext b off1 sp nl) (tSp b off1 sp nl) (tEnd b off1 sp nl).2 hat (by omega) (fun _ => hasInd_tSp h hsp)
      have hd := drop_line h sp
      have hO := tLine_ok h hsp
      by_cases hr : tNext b off1 sp nl < b.length
      · have hre : (tEnd b off1 sp nl).1 < b.length := by unfold tNext at hr; split at hr <;> omega
        have hnxe : tNext b off1 sp nl = (tEnd b off1 sp nl).1 + 1 := by unfold tNext; rw [if_pos hre]
        obtain ⟨f, rfl⟩ : ∃ f, fuel = f + 1 := ⟨fuel - 1, by omega⟩
        rw [parts_cons b f _ _ _ hr] at hI ⊢
        obtain ⟨hS, hIn, hG, hA⟩ := hI
        refine ⟨?_, ⟨?_, hIn⟩, ⟨?_, hG⟩, ?_⟩
        · rw [hd, drop_sep hre]
          have hsep : b.getD (tEnd b off1 sp nl).1 0 =
              if (tLine b (tNext b off1 sp nl) (tSp b off1 sp nl) (tEnd b off1 sp nl).2).cont then 32 else 10 := by
            cases hc : (tEnd b off1 sp nl).2 with
            | true => rw [(ok.nl hc).2]; rfl
            | false => rw [(ok.nonl' hc hre).1]; rfl
          rw [hsep, ← hnxe]
          unfold Shows at hS ⊢
          conv => arg 1; rhs; unfold shown
          conv => arg 2; arg 1; rhs; unfold shown
          conv => arg 2; arg 2; rhs; unfold shown
          simp only [List.append_assoc, List.cons_append, List.append_cancel_left_eq, List.cons.injEq, true_and]
          exact hS
        · intro hc
          cases hc' : (tEnd b off1 sp nl).2 with
          | true => rw [hc'] at hc; simp [tLine] at hc
          | false => cases nl <;> simp [tLine, tSp]
        · intro hc w r ht hw hr'
          cases hc' : (tEnd b off1 sp nl).2 with
          | true => rw [hc'] at hc; simp [tLine] at hc
          | false =>
            rw [hc', hnxe] at ht
            have := greedy_step h sp _ hre hc' w r ht hw hr'
            have hb : (if (tLine b off1 sp nl).cont then (tLine b off1 sp nl).indent - 4 else (tLine b off1 sp nl).indent) =
                tSp b off1 sp nl := by cases nl <;> simp [tLine]
            rw [hb]
            exact this
        · intro l hm
          rcases List.mem_cons.mp hm with rfl | hm
          · exact hO
          · exact hA l hm
      · rw [parts_nil b fuel _ _ _ hr]
        refine ⟨?_, trivial, trivial, ?_⟩
        · rw [hd]
          unfold Shows shown
          by_cases hre : (tEnd b off1 sp nl).1 < b.length
          · have hnxe : tNext b off1 sp nl = (tEnd b off1 sp nl).1 + 1 := by unfold tNext; rw [if_pos hre]
            rw [drop_sep hre, ← hnxe, List.drop_eq_nil_of_le (by omega)]
            right
            cases hc : (tEnd b off1 sp nl).2 with
            | true => left; rw [(ok.nl hc).2]
            | false => right; rw [(ok.nonl' hc hre).1]
          · left; rw [List.drop_eq_nil_of_le (by omega), List.append_nil]
        · intro l hm
          rw [List.mem_singleton.mp hm]; exact hO
    · rw [parts_nil b _ _ _ _ hl, List.drop_eq_nil_of_le (by omega)]
      exact ⟨Or.inl rfl, trivial, trivial, by simp⟩

theorem parts_head_cont (b : Bytes) (fuel sp : Nat) : ∀ l, (parts b fuel 0 sp true).head? = some l → l.cont = false := by
  intro l hl
  by_cases hb : 0 < b.length
  · cases fuel with
    | zero => simp [parts] at hl
    | succ f =>
      rw [parts_cons b f 0 sp true hb] at hl
      simp at hl; rw [← hl]; rfl
  · rw [parts_nil b _ _ _ _ hb] at hl; simp at hl

theorem parts_length (b : Bytes) : ∀ fuel off1 sp nl, At b off1 nl → (parts b fuel off1 sp nl).length ≤ b.length - off1 := by
  intro fuel
  induction fuel with
  | zero => intro off1 sp nl h; simp [parts]
  | succ fuel ih =>
    intro off1 sp nl h
    by_cases hl : off1 < b.length
    · rw [parts_cons b fuel off1 sp nl hl]
      have hnx := tNext_gt h sp hl
      have := ih (tNext b off1 sp nl) (tSp b off1 sp nl) (tEnd b off1 sp nl).2 (at_next (tEnd_ok h sp))
      simp only [List.length_cons]; omega
    · rw [parts_nil b _ _ _ _ hl]; simp

theorem parts_pos (b : Bytes) (fuel sp : Nat) (nl : Bool) (hb : b ≠ []) : parts b (fuel + 1) 0 sp nl ≠ [] := by
  rw [parts_cons b fuel 0 sp nl (by cases b with | nil => exact absurd rfl hb | cons _ _ => simp)]
  simp

/-- The loop prints these lines if they fit into the buffer. -/
theorem lines_eq (s : Log) (mins : Nat) (secs b : Bytes) : ∀ fuel off1 sp nl lc, At b off1 nl → b.length - off1 < fuel →
    lines s mins secs b fuel off1 sp nl lc =
      if ∀ l ∈ (parts b fuel off1 sp nl).mapIdx (fun i l => render (header s mins secs) (lc + i + 1) l), l.length < 250 then
        some ((parts b fuel off1 sp nl).mapIdx fun i l => render (header s mins secs) (lc + i + 1) l)
      else none := by
  intro fuel
  induction fuel with
  | zero => intro off1 sp nl lc h hf; omega
  | succ fuel ih =>
    intro off1 sp nl lc h hf
    by_cases hl : off1 < b.length
    · have hnx := tNext_gt h sp hl
      have hI := ih (tNext b off1 sp nl) (tSp b off1 sp nl) (tEnd b off1 sp nl).2 (lc + 1) (at_next (tEnd_ok h sp)) (by omega)
      have hL : lines s mins secs b (fuel + 1) off1 sp nl lc =
          if (render (header s mins secs) (lc + 1) (tLine b off1 sp nl)).length < 250 then
            (lines s mins secs b fuel (tNext b off1 sp nl) (tSp b off1 sp nl) (tEnd b off1 sp nl).2 (lc + 1)).map
              (render (header s mins secs) (lc + 1) (tLine b off1 sp nl) :: ·) else none := by
        conv => lhs; unfold lines
        rw [if_pos hl]
        cases nl <;> rfl
      rw [hL, hI, parts_cons b fuel off1 sp nl hl, List.mapIdx_cons]
      have hfn : (fun i l => render (header s mins secs) (lc + (i + 1) + 1) l) =
          (fun i l => render (header s mins secs) (lc + 1 + i + 1) l) := by
        funext i l; rw [show lc + (i + 1) + 1 = lc + 1 + i + 1 by omega]
      simp only [List.forall_mem_cons, hfn, Nat.add_zero]
      by_cases c1 : (render (header s mins secs) (lc + 1) (tLine b off1 sp nl)).length < 250
      · rw [if_pos c1]
        by_cases c2 : ∀ l ∈ List.mapIdx (fun i l => render (header s mins secs) (lc + 1 + i + 1) l)
            (parts b fuel (tNext b off1 sp nl) (tSp b off1 sp nl) (tEnd b off1 sp nl).2), l.length < 250
        · rw [if_pos c2, if_pos ⟨c1, c2⟩]; rfl
        · rw [if_neg c2, if_neg (fun h => c2 h.2)]; rfl
      · rw [if_neg c1, if_neg (fun h => c1 h.1)]
    · rw [parts_nil b _ _ _ _ hl]
      unfold lines
      rw [if_neg hl]; simp

end Laik.Lg
