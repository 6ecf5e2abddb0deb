import Verif.Model.TcpFrameLemmas
/-!
# C38 Receiving does not depend on how data is cut into reads

Full statement: the commands and elements processed depend only on the bytes
sent.  This is proved for peers following the protocol (`Proper`); it is false
in general: `quit` followed by more data and Ctrl-D access freed memory, and
more data than asked for fails or is ignored depending on the cut.
-/

namespace Laik
open Tcp

variable {σ : Type} {R : Receiver σ} {Inv : σ → Prop}

/-- Connection between two reads, with `stream` still to be sent. -/
theorem gotAll_good (hc : Counting R Inv) : ∀ (ks : List Nat) (c : Conn σ) (stream : Bytes)
    (G : Nat → σ), c.closed = false → c.buf.length < rbufLen →
    Good R Inv rbufLen c.st c.bin [] (c.buf ++ stream) G →
    c.st = G c.buf.length → Stuck R c →
    ∃ c' n, gotAll R c ks stream = .ok (c', stream.drop n) ∧ n ≤ stream.length ∧
      min ks.length stream.length ≤ n ∧ c'.closed = false ∧ c'.buf.length < rbufLen ∧
      c'.st = G (c.buf.length + n) ∧ Stuck R c' ∧
      ∃ G', Good R Inv rbufLen c'.st c'.bin [] (c'.buf ++ stream.drop n) G' ∧
        ∀ m, G' (c'.buf.length + m) = G (c.buf.length + n + m) := by
  intro ks
  induction ks with
  | nil =>
    intro c stream G h1 h2 h3 h4 h0
    exact ⟨c, 0, by simp [gotAll], by omega, by simp, h1, h2, h4, h0, G, by simpa using h3, fun m => rfl⟩
  | cons k ks ih =>
    intro c stream G h1 h2 h3 h4 h0
    by_cases hs : stream = []
    · subst hs
      refine ⟨c, 0, ?_, by omega, by simp, h1, h2, h4, h0, G, by simpa using h3, fun m => rfl⟩
      simp [gotAll]
    · have hpos := List.length_pos_iff.mpr hs
      obtain ⟨n, hn⟩ : ∃ n, n = min (k + 1) (rbufLen - c.buf.length) := ⟨_, rfl⟩
      have hn1 : 1 ≤ n := by omega
      have h3' : Good R Inv rbufLen c.st c.bin []
          ((c.buf ++ stream.take n) ++ stream.drop n) G := by
        rw [List.append_assoc, List.take_append_drop]; exact h3
      obtain ⟨c1, g1, g2, g3, g4, g0, G1, g5, g6⟩ := scan_spec hc (by decide : 3 ≤ rbufLen) _
        (c.buf ++ stream.take n) _ _ _ _ _ rfl h3'
      have hlen : (c.buf ++ stream.take n).length = c.buf.length + min n stream.length := by
        rw [List.length_append, List.length_take]
      obtain ⟨c2, j, e1, e2, e3, e4, e5, e6, e0, G2, e7, e8⟩ := ih c1 (stream.drop n) G1 g2 g4 g5
        (by have := g6 0; rw [Nat.add_zero, Nat.add_zero] at this; rw [this, g3]) g0
      have hdl : (stream.drop n).length = stream.length - n := List.length_drop
      refine ⟨c2, min n stream.length + j, ?_, by omega, by simp only [List.length_cons]; omega, e4, e5,
        ?_, e0, G2, ?_, ?_⟩
      · simp only [gotAll]
        rw [if_neg (by rintro (h | h); exacts [hs h, by rw [h1] at h; cases h])]
        unfold gotBytes
        rw [if_neg (by omega)]
        simp only [← hn, g1]
        rw [e1, List.drop_drop]
        congr 2
        by_cases h : n ≤ stream.length
        · rw [Nat.min_eq_left h]
        · rw [List.drop_eq_nil_of_le (by omega), List.drop_eq_nil_of_le (by omega)]
      · rw [e6, g6, hlen, Nat.add_assoc]
      · have : stream.drop (min n stream.length + j) = (stream.drop n).drop j := by
          rw [List.drop_drop]
          by_cases h : n ≤ stream.length
          · rw [Nat.min_eq_left h]
          · rw [List.drop_eq_nil_of_le (by omega), List.drop_eq_nil_of_le (by omega)]
        rw [this]; exact e7
      · intro m
        rw [e8, Nat.add_assoc, g6, hlen]
        congr 1
        omega

theorem gotAll_wire (hc : Counting R Inv) {s : σ} (hi : Inv s) {ms : List Msg}
    (hp : Proper R rbufLen s ms) (ks : List Nat) :
    ∃ c' n, gotAll R { st := s } ks (wire ms) = .ok (c', (wire ms).drop n) ∧
      n ≤ (wire ms).length ∧ min ks.length (wire ms).length ≤ n ∧ c'.closed = false ∧
      c'.buf.length < rbufLen ∧ c'.st = after R s ms n ∧ Stuck R c' ∧
      ∃ G', Good R Inv rbufLen c'.st c'.bin [] (c'.buf ++ (wire ms).drop n) G' ∧
        ∀ m, G' (c'.buf.length + m) = after R s ms (n + m) := by
  have hg := Good.text (R := R) (Inv := Inv) (lim := rbufLen) s [] (wire ms) ms hi rfl hp
    (by simp) (by simp)
  have h0 : s = after R s ms 0 := by
    cases ms with
    | nil => rfl
    | cons m ms =>
      cases m with
      | line b => simp [after]
      | block b => simp [after]
  obtain ⟨c', n, h1, h2, h3, h4, h5, h6, hst, G', h7, h8⟩ := gotAll_good hc ks { st := s } (wire ms) _ rfl
    (by show 0 < rbufLen; decide) hg h0 (Or.inl ⟨rfl, Or.inl ⟨by simp, by simp⟩⟩)
  refine ⟨c', n, h1, h2, h3, h4, h5, by simpa using h6, hst, G', h7, fun m => by simpa using h8 m⟩

/-- However the bytes of proper messages are cut by `read`, nothing fails, the
buffer never is full, and the state is given by the number of bytes read:
exactly the complete lines and elements are handled, in order.  Every read
makes progress. -/
theorem C38_any_cut_partial (hc : Counting R Inv) {s : σ} (hi : Inv s) {ms : List Msg}
    (hp : Proper R rbufLen s ms) (ks : List Nat) :
    ∃ c' n, gotAll R { st := s } ks (wire ms) = .ok (c', (wire ms).drop n) ∧
      n ≤ (wire ms).length ∧ min ks.length (wire ms).length ≤ n ∧
      c'.buf.length < rbufLen ∧ c'.closed = false ∧ c'.st = after R s ms n := by
  obtain ⟨c', n, h1, h2, h3, h4, h5, h6, -⟩ := gotAll_wire hc hi hp ks
  exact ⟨c', n, h1, h2, h3, h5, h4, h6⟩

/-- Two ways to cut the same data: same state, if the same amount was read. -/
theorem C38_same_partial (hc : Counting R Inv) {s : σ} (hi : Inv s) {ms : List Msg}
    (hp : Proper R rbufLen s ms) {ks ks' : List Nat} {c c' : Conn σ} {left : Bytes}
    (h : gotAll R { st := s } ks (wire ms) = .ok (c, left))
    (h' : gotAll R { st := s } ks' (wire ms) = .ok (c', left)) : c.st = c'.st := by
  obtain ⟨d, n, h1, h2, -, -, -, h6, -⟩ := gotAll_wire hc hi hp ks
  obtain ⟨d', n', h1', h2', -, -, -, h6', -⟩ := gotAll_wire hc hi hp ks'
  rw [h] at h1
  rw [h'] at h1'
  injection h1 with h1
  injection h1' with h1'
  injection h1 with h1 h1r
  injection h1' with h1' h1r'
  have : n = n' := by
    have e1 := congrArg List.length h1r
    have e2 := congrArg List.length h1r'
    rw [List.length_drop] at e1 e2
    omega
  rw [h1, h1', h6, h6', this]

theorem wire_length_pos {m : Msg} {ms : List Msg} : 0 < (wire (m :: ms)).length := by
  cases m <;> simp [wire, Msg.bytes]

theorem after_all (s : σ) (ms : List Msg) (k : Nat) :
    after R s ms ((wire ms).length + k) = afterAll R s ms := by
  induction ms generalizing s k with
  | nil => rfl
  | cons m ms ih =>
    cases m with
    | line b =>
      simp only [after, afterAll, wire, Msg.bytes, List.length_append, List.length_cons,
        List.length_nil]
      rw [if_neg (by omega), ← ih (takeLine R s b) k]
      congr 1
      omega
    | block b =>
      simp only [after, afterAll, wire, Msg.bytes, List.length_append, List.length_cons]
      rw [if_neg (by omega), if_neg (by omega), ← ih (takeIn R s b) k]
      congr 1
      omega

/-- After all bytes arrived, all messages were handled, in order, each once,
and nothing is left in the buffer. -/
theorem C38_complete_partial (hc : Counting R Inv) {s : σ} (hi : Inv s) {ms : List Msg}
    (hp : Proper R rbufLen s ms) {ks : List Nat} (hk : (wire ms).length ≤ ks.length) :
    ∃ c', gotAll R { st := s } ks (wire ms) = .ok (c', []) ∧ c'.st = afterAll R s ms ∧
      c'.buf = [] ∧ c'.bin = 0 := by
  obtain ⟨c', n, h1, h2, h3, h4, h5, h6, hst, G', h7, h8⟩ := gotAll_wire hc hi hp ks
  have hn : n = (wire ms).length := by omega
  subst hn
  rw [List.drop_length] at h1 h7
  rw [List.append_nil] at h7
  refine ⟨c', h1, ?_, ?_⟩
  · rw [h6]; exact after_all s ms 0
  · exact stuck_end hst h7

/-! ### Where it fails -/

/-- Ctrl-D closes the connection, and the freed buffer is accessed. -/
theorem C38_ctrl_d (R : Receiver σ) (s : σ) (cur rest : Bytes) :
    scan R s 0 cur (4 :: rest) = .error .freed := by
  rw [scan, if_neg (by omega), if_neg (by rintro ⟨-, h⟩; revert h; decide), if_pos rfl]

/-- A line closing the connection (`quit`), with more bytes in the buffer. -/
theorem C38_quit_more (R : Receiver σ) (s : σ) (cur rest : Bytes) (hr : rest ≠ [])
    (hq : cur ≠ [] ∧ (R.line s cur).2 = false) :
    scan R s 0 cur (10 :: rest) = .error .freed := by
  have h : (gotCmd R s cur).2 = false := by unfold gotCmd; rw [if_neg hq.1]; exact hq.2
  rw [scan, if_neg (by omega), if_neg (by rintro ⟨-, h⟩; revert h; decide), if_neg (by decide),
    if_neg (by decide), if_pos rfl, h, if_neg (by decide), if_neg hr]

/-- Receiver noting what it got; `quit` closes the connection, `a` lets it ask
for one element more. -/
structure Noted where
  lines : List Bytes := []
  elems : List Bytes := []
  rem : Nat := 0
  deriving DecidableEq

def noted : Receiver Noted where
  line s b := ({ s with lines := s.lines ++ [b], rem := s.rem + b.count 97 }, b.head? != some 113)
  rem s := s.rem
  esize _ := 2
  elem s e := ({ s with elems := s.elems ++ [e], rem := s.rem - 1 }, s.rem - 1 != 0)

theorem noted_counting : Counting noted (fun _ => True) where
  line _ _ _ := trivial
  elem s e _ h _ := by
    refine ⟨trivial, ?_, rfl, ?_⟩
    · show s.rem - 1 + 1 = s.rem
      have : s.rem ≠ 0 := h
      omega
    · show (s.rem - 1 != 0) = true ↔ s.rem - 1 ≠ 0
      simp

/-- The result depends on the cut if more is sent than was asked for. -/
theorem C38_excess_depends :
    gotAll noted { st := { rem := 1 } } [4, 1] [66, 4, 0, 1, 2, 3, 4] =
        .ok ({ st := { elems := [[1, 2]] } }, []) ∧
      gotAll noted { st := { rem := 1 } } [6] [66, 4, 0, 1, 2, 3, 4] = .error .assert := by
  decide +kernel

/-- A connection closed within an element: the line end added is taken as its
last byte. -/
theorem C38_eof_data : ∃ c, gotAll noted { st := { rem := 1 } } [10] [66, 2, 0, 65] = .ok (c, []) ∧
    c.st.elems = [] ∧ ∃ c', gotEof noted c = .ok c' ∧ c'.st.elems = [[65, 10]] :=
  ⟨{ st := { rem := 1 }, bin := 2, buf := [65] },
    by decide +kernel, rfl,
    { st := { elems := [[65, 10]] }, closed := true },
    by decide +kernel, rfl⟩

/-! ### Example: lines, with CR, and blocks with the values of `B`, line end and Ctrl-D -/

def sample : List Msg :=
  [.line [97, 13, 97], .block [66, 10], .line [], .block [4, 0], .block [1, 2, 3], .line [120]]

theorem sample_proper : Proper noted rbufLen {} sample := by
  simp only [sample, Proper]
  refine ⟨by decide, by decide, by decide, by decide, by decide, by decide, by decide, ?_, by decide,
    by decide, by decide, by decide, by decide, by decide, by decide, ?_, by decide, by decide, ?_,
    by decide, by decide, by decide, by decide, by decide, trivial⟩
  · exact Or.inr (by decide)
  · exact Or.inr (by decide)
  · exact Or.inl (by decide)

example : afterAll noted {} sample =
    { lines := [[97, 32, 97], [120]], elems := [[66, 10], [4, 0]], rem := 0 } := by decide

example : ∃ c, gotAll noted { st := {} } [2, 0, 0, 3, 0, 7] (wire sample) = .ok (c, [1, 2, 3, 120, 10]) ∧
    c.st = { lines := [[97, 32, 97]], elems := [[66, 10], [4, 0]], rem := 0 } :=
  ⟨{ st := { lines := [[97, 32, 97]], elems := [[66, 10], [4, 0]], rem := 0 }, bin := 3 },
    by decide +kernel, rfl⟩

end Laik
