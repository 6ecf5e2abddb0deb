import Verif.Model.LogParts
import Verif.Model.LogOrder
import Verif.Model.Tcp2SyncText
/-!
# C58: log output

Messages are shown completely, in lines which are wrapped as documented, without writing
beyond buffers, if words are not too long.
-/

namespace Laik.Lg
open Laik Laik.LogSpec

/-- The buffer of messages does not exist or has at least the initial size. -/
def BufOK (s : Log) : Prop := s.size = 0 ∨ 1024 ≤ s.size

/-- The filter for location IDs is not empty. -/
def FilterOK (s : Log) : Prop := s.inst ≠ none → 0 ≤ s.fromL → s.fromL ≤ s.toL

/-- Messages of level `l` are to be shown by this process. -/
def Visible (s : Log) (l : Nat) : Prop :=
  s.level ≤ l ∧ ∀ id : Nat, s.inst = some id → 0 ≤ s.fromL → s.fromL ≤ id ∧ (id : Int) ≤ s.toL

theorem begin_visible {s : Log} {l : Nat} (hf : FilterOK s) (hv : Visible s l) :
    logBegin s l = some ({ s with cur := l, buf := [], size := if s.size = 0 then 1024 else s.size }, true) := by
  unfold logBegin
  rw [if_neg (by have := hv.1; omega)]
  cases hi : s.inst with
  | none => rfl
  | some id =>
    simp only
    by_cases h0 : 0 ≤ s.fromL
    · have := hv.2 id hi h0
      rw [if_pos h0, if_pos (hf (by simp [hi]) h0), if_neg (by omega)]
    · rw [if_neg h0]

theorem begin_hidden {s : Log} {l : Nat} (hf : FilterOK s) (hv : ¬ Visible s l) :
    logBegin s l = some ({ s with cur := 0 }, false) := by
  unfold logBegin
  by_cases hl : l < s.level
  · rw [if_pos hl]
  · rw [if_neg hl]
    cases hi : s.inst with
    | none => exact absurd ⟨by omega, fun id h => by rw [hi] at h; simp at h⟩ hv
    | some id =>
      simp only
      by_cases h0 : 0 ≤ s.fromL
      · rw [if_pos h0, if_pos (hf (by simp [hi]) h0)]
        rw [if_pos]
        by_contra hc
        exact hv ⟨by omega, fun id' h _ => by rw [hi] at h; simp at h; subst h; omega⟩
      · exact absurd ⟨by omega, fun _ _ h => absurd h h0⟩ hv

/-- Appending text which is not longer than the buffer, or the first text, never fails. -/
theorem append_ok {s : Log} {t : Bytes} (hc : s.cur ≠ 0) (hs : s.buf.length < s.size) (ht : s.buf = [] ∨ t.length ≤ s.size) :
    ∃ n, logAppend s t = some { s with size := n, buf := s.buf ++ t } ∧ s.size ≤ n ∧ (s.buf ++ t).length < n := by
  unfold logAppend
  rw [if_neg hc, if_pos hs]
  by_cases h1 : s.size - s.buf.length ≤ t.length
  · rw [if_pos h1]
    have hx : t.length < (if 2 * s.size < t.length + 1 then t.length + 1 else 2 * s.size) - s.buf.length := by
      rcases ht with ht | ht
      · rw [ht]; simp only [List.length_nil]; split <;> omega
      · split <;> omega
    refine ⟨if 2 * s.size < t.length + 1 then t.length + 1 else 2 * s.size, by simp only [hx, if_true], by split <;> omega, ?_⟩
    rw [List.length_append]; omega
  · rw [if_neg h1]
    exact ⟨s.size, rfl, Nat.le_refl _, by rw [List.length_append]; omega⟩

theorem append_some {s s' : Log} {t : Bytes} (hc : s.cur ≠ 0) (h : logAppend s t = some s') : ∃ n, s' = { s with size := n, buf := s.buf ++ t } := by
  unfold logAppend at h
  rw [if_neg hc] at h
  split at h
  · split at h
    · simp only [Option.ite_none_right_eq_some] at h
      exact ⟨_, (Option.some.inj h.2).symm⟩
    · exact ⟨s.size, (Option.some.inj h).symm⟩
  · simp at h

theorem appends_ok (ts : List Bytes) : ∀ s : Log, s.cur ≠ 0 → s.buf.length < s.size → 1024 ≤ s.size → (∀ t ∈ ts, t.length ≤ 1024) →
    ∃ n, ts.foldlM logAppend s = some { s with size := n, buf := s.buf ++ ts.flatten } ∧ 1024 ≤ n := by
  induction ts with
  | nil => intro s _ _ h2 _; exact ⟨s.size, by simp, h2⟩
  | cons t ts ih =>
    intro s hc hs h2 ht
    obtain ⟨n, h3, h4, h5⟩ := append_ok (t := t) hc hs (Or.inr (by have := ht t (by simp); omega))
    obtain ⟨n', h6, h7⟩ := ih { s with size := n, buf := s.buf ++ t } hc h5 (by simp only; omega) (fun t' h => ht t' (by simp [h]))
    refine ⟨n', ?_, h7⟩
    rw [List.foldlM_cons, h3]
    simp only [Option.bind_eq_bind, Option.bind_some, h6, List.flatten_cons, List.append_assoc]

/-- State with which lines of the next message are printed. -/
def Log.printing (s : Log) (l : Nat) : Log :=
  { s with cur := l, counter := nextCounter s, lastCtr := s.ctr }

theorem header_congr {s s' : Log} (h1 : s.inst = s'.inst) (h2 : s.loc = s'.loc) (h3 : s.pre = s'.pre) (h4 : s.ctr = s'.ctr)
    (h5 : s.counter = s'.counter) (h6 : s.cur = s'.cur) (mins : Nat) (secs : Bytes) : header s mins secs = header s' mins secs := by
  funext k
  unfold header hdrProc
  rw [h1, h2, h3, h4, h5, h6]

/-- Lines of a message fit into the buffer if words and indentation are not too long. -/
theorem fits_line {b : Bytes} {l : Line} (h : LineOK b l) (hw : WordsLe 80 b) (hi : IndentLe 100 b) {h0 : Bytes} (hh : h0.length ≤ 60) :
    (h0 ++ List.replicate l.indent 32 ++ l.text ++ [10]).length < 250 := by
  obtain ⟨x, k, y, h1, h2, h3⟩ := h.ind
  have hk := hi x k y h1 h2
  have hlen : l.text.length ≤ 80 ∨ (if l.cont then l.indent - 4 else l.indent) + l.text.length ≤ 181 := by
    by_cases hb : 32 ∈ l.text
    · right
      have hr : 32 ∈ l.text.reverse := by simpa using hb
      obtain ⟨w, a, ha, hna⟩ : ∃ w a, l.text.reverse = w ++ 32 :: a ∧ 32 ∉ w := List.eq_append_cons_of_mem hr
      have ha' : l.text = a.reverse ++ 32 :: w.reverse := by
        have := congrArg List.reverse ha
        simpa using this
      have hs := h.short _ _ ha'
      obtain ⟨x', y', hp⟩ := h.isPart
      have hwl : w.reverse.length ≤ 80 := by
        refine hw (x' ++ (a.reverse ++ [32])) w.reverse y' ?_ (by simpa using hna) ?_
        · rw [hp, ha']; simp
        · intro hm
          exact h.noNl (by rw [ha']; simp at hm ⊢; simp [hm])
      rw [ha', List.length_append, List.length_cons]
      omega
    · left
      obtain ⟨x', y', hp⟩ := h.isPart
      exact hw x' l.text y' hp hb h.noNl
  simp only [List.length_append, List.length_replicate, List.length_singleton]
  split at h3
  · rename_i hc
    rw [if_pos hc] at hlen
    omega
  · rename_i hc
    rw [if_neg hc] at hlen
    omega

/-- Printing a message. -/
theorem flush_ok {s : Log} {mins : Nat} {secs : Bytes} (hc : s.cur ≠ 0) (hb : s.buf ≠ [])
    (hsm : SmallNumbers (s.printing s.cur) mins secs) (hl : s.buf.length < 10 ^ 6 - 1) (hw : WordsLe 80 s.buf) (hi : IndentLe 100 s.buf) :
    ∃ ls : List Line, logFlush s mins secs = some { s.printing s.cur with
        buf := [], out := s.out ++ ls.mapIdx (fun i l => header (s.printing s.cur) mins secs (i + 1) ++ List.replicate l.indent 32 ++ l.text ++ [10]),
        stopped := s.stopped || s.cur == 5 } ∧
      Shows ls s.buf ∧ Indented ls ∧ Greedy ls ∧ (∀ l ∈ ls, Wrapped l ∧ 10 ∉ l.text) ∧
      (∀ l, ls.head? = some l → l.cont = false) ∧ ls ≠ [] ∧ ls.length ≤ s.buf.length := by
  have hat : At s.buf 0 true := ⟨Nat.zero_le _, fun _ => Or.inl rfl⟩
  have hfu : s.buf.length - 0 < s.buf.length + 1 := by omega
  obtain ⟨h1, h2, h3, h4⟩ := parts_spec s.buf (s.buf.length + 1) 0 0 true hat hfu (by simp)
  have hpl := parts_length s.buf (s.buf.length + 1) 0 0 true hat
  refine ⟨parts s.buf (s.buf.length + 1) 0 0 true, ?_, by simpa using h1, h2, h3, fun l hm => ⟨(h4 l hm).wrapped, (h4 l hm).noNl⟩,
    parts_head_cont s.buf _ 0, parts_pos s.buf _ 0 true hb, by simpa using hpl⟩
  unfold logFlush
  rw [if_neg (by simp [hc, hb])]
  simp only
  rw [lines_eq _ _ _ _ _ _ _ _ _ hat hfu, if_pos]
  · simp only [Option.map_some, Nat.zero_add]
    rfl
  · intro l hm
    obtain ⟨i, hil, rfl⟩ := List.mem_mapIdx.mp hm
    refine fits_line (h4 _ (List.getElem_mem hil)) hw hi ?_
    exact header_length (s := s.printing s.cur) hsm (by omega)

/-- Messages are shown: every message built with `laik_log_begin`, `laik_log_append` and
`laik_log_flush` which is to be shown is printed, completely, with lines broken at blanks if they
get too long, and not otherwise; continuations of lines are indented. Buffers suffice.

The claim needs that words have up to 80 characters, lines start with up to 100 blanks, pieces after the first have
up to 1024 characters, and that numbers in the prefix have at most 6 digits. The code fails
otherwise, see `C58_append_fails` and `C58_long_word_fails`. -/
theorem C58_message_partial (s : Log) (l : Nat) (t : Bytes) (ts : List Bytes) (mins : Nat) (secs : Bytes) (hbuf : BufOK s) (hf : FilterOK s)
    (hv : Visible s l) (hl : l ≠ 0) (ht : ∀ t ∈ ts, t.length ≤ 1024) (hne : t ++ ts.flatten ≠ [])
    (hlen : (t ++ ts.flatten).length < 10 ^ 6 - 1) (hw : WordsLe 80 (t ++ ts.flatten)) (hi : IndentLe 100 (t ++ ts.flatten))
    (hsm : SmallNumbers (s.printing l) mins secs) :
    ∃ (s' : Log) (ls : List Line), logSteps s l (t :: ts) mins secs = some s' ∧
      s'.out = s.out ++ ls.mapIdx (fun i x => header (s.printing l) mins secs (i + 1) ++ List.replicate x.indent 32 ++ x.text ++ [10]) ∧
      Shows ls (t ++ ts.flatten) ∧ Indented ls ∧ Greedy ls ∧ (∀ x ∈ ls, Wrapped x ∧ 10 ∉ x.text) ∧
      (∀ x, ls.head? = some x → x.cont = false) ∧ BufOK s' ∧ (s'.stopped = true ↔ s.stopped = true ∨ l = 5) := by
  have hsz : 1024 ≤ (if s.size = 0 then 1024 else s.size) := by rcases hbuf with h | h <;> split <;> omega
  unfold logSteps
  rw [begin_visible hf hv, Option.bind_some, List.foldlM_cons]
  obtain ⟨n, h3, h4, h5⟩ := append_ok (s := { s with cur := l, buf := [], size := if s.size = 0 then 1024 else s.size }) (t := t) hl
    (by simp only [List.length_nil]; omega) (Or.inl rfl)
  simp only at h3 h4 h5
  obtain ⟨n', h6, h7⟩ := appends_ok ts { s with cur := l, buf := [] ++ t, size := n } hl h5 (by simp only; omega) ht
  simp only at h6
  simp only [Option.bind_eq_bind]
  rw [h3, Option.bind_some, h6, Option.bind_some]
  obtain ⟨ls, a1, a2, a3, a4, a5, a6, _, _⟩ := flush_ok (s := { s with cur := l, buf := [] ++ t ++ ts.flatten, size := n' }) (mins := mins) (secs := secs)
    hl (by simpa using hne) ⟨hsm.ctr, hsm.counter, hsm.inst, hsm.loc, hsm.mins, hsm.secs⟩ (by simpa using hlen) (by simpa using hw) (by simpa using hi)
  refine ⟨_, ls, a1, ?_, by simpa using a2, a3, a4, a5, a6, Or.inr h7, by simp⟩
  simp only
  congr 2

/-- Other messages are not printed. -/
theorem C58_hidden (s : Log) (l : Nat) (ts : List Bytes) (mins : Nat) (secs : Bytes) (hf : FilterOK s) (hv : ¬ Visible s l) :
    ∃ s', logSteps s l ts mins secs = some s' ∧ s'.out = s.out ∧ s'.stopped = s.stopped := by
  have ha : ∀ ts : List Bytes, ts.foldlM logAppend { s with cur := 0 } = some { s with cur := 0 } := by
    intro ts
    induction ts with
    | nil => rfl
    | cons t ts ih =>
      rw [List.foldlM_cons, show logAppend { s with cur := 0 } t = some { s with cur := 0 } by unfold logAppend; rw [if_pos rfl]]
      exact ih
  unfold logSteps
  rw [begin_hidden hf hv, Option.bind_some, ha, Option.bind_some]
  unfold logFlush
  rw [if_pos (Or.inl rfl)]
  exact ⟨_, rfl, rfl, rfl⟩

/-- `laik_log` is the same as building a message in one step. -/
theorem C58_log (s : Log) (l : Nat) (t : Bytes) (mins : Nat) (secs : Bytes) (hf : FilterOK s) :
    logMsg s l t mins secs = logSteps s l [t] mins secs := by
  unfold logMsg logSteps
  by_cases hv : Visible s l
  · rw [begin_visible hf hv]
    simp only [Option.bind_some, if_true, List.foldlM_cons, List.foldlM_nil, Option.bind_eq_bind]
    cases logAppend _ t <;> rfl
  · rw [begin_hidden hf hv]
    simp [logAppend, logFlush]

/-- The buffer is not always enlarged as needed: appending a text of at least twice the size of the
buffer after another one fails. -/
theorem C58_append_fails (s : Log) (t u : Bytes) (hs : s.cur ≠ 0) (hb : s.buf = []) (ht : t ≠ []) (hts : t.length < s.size)
    (hu : 2 * s.size ≤ u.length + t.length) : [t, u].foldlM logAppend s = none := by
  have hp : 0 < t.length := List.length_pos_iff.mpr ht
  have h1 : logAppend s t = some { s with buf := t } := by
    unfold logAppend
    rw [if_neg hs, if_pos (by rw [hb]; simp only [List.length_nil]; omega), if_neg (by rw [hb]; simp only [List.length_nil]; omega), hb, List.nil_append]
  rw [List.foldlM_cons, h1]
  simp only [List.foldlM_cons, List.foldlM_nil, Option.bind_eq_bind, Option.bind_some]
  have h2 : logAppend { s with buf := t } u = none := by
    unfold logAppend
    rw [if_neg hs]
    simp only
    rw [if_pos hts, if_pos (by omega), if_neg (by split <;> omega)]
  rw [h2]; rfl

/-- A word with 250 characters or more is written beyond the end of the buffer for a line. -/
theorem C58_long_word_fails (s : Log) (l : Nat) (w : Bytes) (mins : Nat) (secs : Bytes) (hf : FilterOK s)
    (hv : Visible s l) (hl : l ≠ 0) (h1 : 32 ∉ w) (h2 : 10 ∉ w) (hw : 250 ≤ w.length) :
    logMsg s l w mins secs = none := by
  unfold logMsg
  rw [begin_visible hf hv]
  simp only [Option.bind_some, if_true]
  cases ha : logAppend { s with cur := l, buf := [], size := if s.size = 0 then 1024 else s.size } w with
  | none => rfl
  | some s2 =>
    rw [Option.bind_some]
    have hs2 : s2.buf = w ∧ s2.cur = l := by
      obtain ⟨n, rfl⟩ := append_some hl ha
      exact ⟨rfl, rfl⟩
    have hne : w ≠ [] := by intro h; rw [h] at hw; simp at hw
    have hat : At w 0 true := ⟨Nat.zero_le _, fun _ => Or.inl rfl⟩
    unfold logFlush
    rw [if_neg (by rw [hs2.1, hs2.2]; simp [hl, hne])]
    simp only [hs2.1]
    rw [lines_eq _ _ _ _ _ _ _ _ _ hat (by omega), if_neg]
    · rfl
    · intro hall
      rw [parts_cons w _ 0 0 true (by omega), List.mapIdx_cons] at hall
      have := hall _ List.mem_cons_self
      have hz : tOff w 0 true = 0 := by
        show skip w 0 = 0
        unfold skip
        cases w with
        | nil => rfl
        | cons a w =>
          rw [List.drop_zero, List.takeWhile_cons, if_neg]
          · rfl
          · intro h; apply h1; simp at h; simp [h]
      have hlen := tLine_len hat 0
      have ok := tEnd_ok hat 0
      have hend : (tEnd w 0 0 true).1 = w.length := by
        have h3 := ok.le
        by_contra hc
        have hlt : (tEnd w 0 0 true).1 < w.length := by omega
        have hm : w.getD (tEnd w 0 0 true).1 0 ∈ w := by rw [getD_lt hlt]; exact List.getElem_mem _
        cases hb : (tEnd w 0 0 true).2 with
        | true => rw [(ok.nl hb).2] at hm; exact h2 hm
        | false => rw [(ok.nonl' hb hlt).1] at hm; exact h1 hm
      rw [hend, hz] at hlen
      unfold render at this
      simp only [List.length_append, List.length_singleton] at this
      omega

/-! ### Order of lines -/

theorem msg_some {s s' : Log} {l : Nat} {t : Bytes} {mins : Nat} {secs : Bytes} (h : logMsg s l t mins secs = some s') :
    (s'.inst = s.inst ∧ s'.pre = s.pre ∧ s'.ctr = s.ctr) ∧
    ((s'.out = s.out ∧ s'.counter = s.counter ∧ s'.lastCtr = s.lastCtr) ∨
      ((∃ ls : List Line, s'.out = s.out ++ ls.mapIdx fun i x => render (header (s.printing l) mins secs) (i + 1) x) ∧
        s'.counter = nextCounter s ∧ s'.lastCtr = s.ctr)) := by
  unfold logMsg at h
  obtain ⟨r, hr, h⟩ := Option.bind_eq_some_iff.mp h
  have hb : r = ({ s with cur := 0 }, false) ∨ r = ({ s with cur := l, buf := [], size := if s.size = 0 then 1024 else s.size }, true) := by
    unfold logBegin at hr
    split at hr
    · exact Or.inl (Option.some.inj hr).symm
    · simp only at hr
      split at hr
      · exact Or.inr (Option.some.inj hr).symm
      · split at hr
        · split at hr
          · split at hr
            · exact Or.inl (Option.some.inj hr).symm
            · exact Or.inr (Option.some.inj hr).symm
          · simp at hr
        · exact Or.inr (Option.some.inj hr).symm
  rcases hb with rfl | rfl
  · simp only [Bool.false_eq_true, if_false, Option.some.injEq] at h
    subst h
    exact ⟨⟨rfl, rfl, rfl⟩, Or.inl ⟨rfl, rfl, rfl⟩⟩
  · simp only [if_true] at h
    obtain ⟨s2, h2, h⟩ := Option.bind_eq_some_iff.mp h
    generalize (if s.size = 0 then 1024 else s.size) = z at h2
    by_cases hl : l = 0
    · unfold logAppend at h2
      rw [if_pos hl] at h2
      rw [← Option.some.inj h2] at h
      unfold logFlush at h
      rw [if_pos (Or.inl hl)] at h
      rw [← Option.some.inj h]
      exact ⟨⟨rfl, rfl, rfl⟩, Or.inl ⟨rfl, rfl, rfl⟩⟩
    · obtain ⟨n, rfl⟩ := append_some hl h2
      unfold logFlush at h
      split at h
      · rw [← Option.some.inj h]
        exact ⟨⟨rfl, rfl, rfl⟩, Or.inl ⟨rfl, rfl, rfl⟩⟩
      · obtain ⟨ls, h3, h4⟩ := Option.map_eq_some_iff.mp h
        subst h4
        refine ⟨⟨rfl, rfl, rfl⟩, Or.inr ⟨?_, rfl, rfl⟩⟩
        rw [lines_eq _ _ _ _ _ _ _ _ _ ⟨Nat.zero_le _, fun _ => Or.inl rfl⟩ (by omega)] at h3
        split at h3
        · refine ⟨parts ([] ++ t) (([] ++ t : Bytes).length + 1) 0 0 true, ?_⟩
          simp only
          rw [← Option.some.inj h3]
          simp only [Nat.zero_add]
          rfl
        · simp at h3

/-- A line with the given numbers in its prefix. -/
def LineAt (id c m k : Nat) (r : Bytes) : Prop := ∃ t, r.drop 3 = key c id m k ++ t

theorem render_at {s : Log} {id l mins : Nat} {secs : Bytes} (hi : s.inst = some id) (hp : s.pre = 2) (k : Nat) (x : Line) :
    LineAt id s.ctr (nextCounter s) k (render (header (s.printing l) mins secs) k x) := by
  obtain ⟨t, ht⟩ := header_key (s.printing l) id mins secs k hi hp
  unfold LineAt render
  have h3 : 3 ≤ (header (s.printing l) mins secs k).length := by
    unfold header
    have : (hdrMark k).length = 3 := by unfold hdrMark; split <;> rfl
    simp only [List.length_append]; omega
  refine ⟨t ++ (List.replicate x.indent 32 ++ (x.text ++ [10])), ?_⟩
  simp only [List.append_assoc]
  rw [List.drop_append_of_le_length h3, ht]
  simp only [List.append_assoc]
  rfl

theorem sorted_aux (id : Nat) : ∀ (ops : List Op) (s s' : Log) (gs : List (List Bytes)), runOps ops s = some (s', gs) →
    s.inst = some id → s.pre = 2 → s.lastCtr ≤ s.ctr → s'.ctr < 10 ^ 4 → s.counter + ops.length < 10 ^ 4 → (∀ g ∈ gs, g.length < 100) →
    s.ctr ≤ s'.ctr ∧ gs.flatten.Pairwise (fun a b => a.drop 3 < b.drop 3) ∧
      ∀ r ∈ gs.flatten, ∃ c m k, LineAt id c m k r ∧ k < 10 ^ 2 ∧ m < 10 ^ 4 ∧ c ≤ s'.ctr ∧ (s.ctr < c ∨ (c = s.ctr ∧ nextCounter s ≤ m)) := by
  intro ops
  induction ops with
  | nil =>
    intro s s' gs h _ _ _ _ _ _
    simp [runOps] at h
    obtain ⟨rfl, rfl⟩ := h
    simp
  | cons o ops ih =>
    intro s s' gs h hi hp hlc hc hm hg
    unfold runOps at h
    obtain ⟨s1, h1, h⟩ := Option.bind_eq_some_iff.mp h
    obtain ⟨⟨s2, gs'⟩, h2, h⟩ := Option.map_eq_some_iff.mp h
    simp only [Prod.mk.injEq] at h
    obtain ⟨rfl, rfl⟩ := h
    simp only [List.length_cons] at hm
    have hnc : nextCounter s ≤ s.counter + 1 := by unfold nextCounter; split <;> omega
    have fin : ∀ (g : List Bytes), s1.out.drop s.out.length = g → s1.inst = some id → s1.pre = 2 → s1.lastCtr ≤ s1.ctr →
        s1.counter ≤ s.counter + 1 → s.ctr ≤ s1.ctr →
        (∀ i (hi : i < g.length), LineAt id s.ctr (nextCounter s) (i + 1) g[i]) →
        (∀ c m, (s1.ctr < c ∨ (c = s1.ctr ∧ nextCounter s1 ≤ m)) → s.ctr < c ∨ (c = s.ctr ∧ nextCounter s ≤ m ∧ (g = [] ∨ nextCounter s < m))) →
        s.ctr ≤ s2.ctr ∧ ((s1.out.drop s.out.length) :: gs').flatten.Pairwise (fun a b => a.drop 3 < b.drop 3) ∧
        ∀ r ∈ ((s1.out.drop s.out.length) :: gs').flatten, ∃ c m k, LineAt id c m k r ∧ k < 10 ^ 2 ∧ m < 10 ^ 4 ∧ c ≤ s2.ctr ∧
          (s.ctr < c ∨ (c = s.ctr ∧ nextCounter s ≤ m)) := by
      intro g hge a1 a2 a3 a4 a5 a6 a7
      obtain ⟨b1, b2, b3⟩ := ih s1 s2 gs' h2 a1 a2 a3 hc (by omega) (fun g' hg' => hg g' (by simp [hg']))
      have hgl : g.length < 100 := by rw [← hge]; exact hg _ List.mem_cons_self
      rw [hge, List.flatten_cons]
      refine ⟨by omega, List.pairwise_append.mpr ⟨?_, b2, ?_⟩, ?_⟩
      · rw [List.pairwise_iff_getElem]
        intro i j hi' hj' hij
        obtain ⟨t1, e1⟩ := a6 i hi'
        obtain ⟨t2, e2⟩ := a6 j hj'
        rw [e1, e2]
        exact key_lt id _ _ _ _ _ _ _ _ (by omega) (by omega) (by omega) (by omega) (by omega) (Or.inr ⟨rfl, Or.inr ⟨rfl, by omega⟩⟩)
      · intro r hr r' hr'
        obtain ⟨i, hi', rfl⟩ := List.mem_iff_getElem.mp hr
        obtain ⟨t1, e1⟩ := a6 i hi'
        obtain ⟨c, m, k, ⟨t2, e2⟩, c1, c2, c3, c4⟩ := b3 r' hr'
        rw [e1, e2]
        refine key_lt id _ _ _ _ _ _ _ _ (by omega) (by omega) c2 (by omega) c1 ?_
        rcases a7 c m c4 with h | ⟨h, _, h'⟩
        · exact Or.inl h
        · rcases h' with h' | h'
          · subst h'; simp at hi'
          · exact Or.inr ⟨h.symm, Or.inl h'⟩
      · intro r hr
        rcases List.mem_append.mp hr with hr | hr
        · obtain ⟨i, hi', rfl⟩ := List.mem_iff_getElem.mp hr
          exact ⟨_, _, _, a6 i hi', by omega, by omega, by omega, Or.inr ⟨rfl, Nat.le_refl _⟩⟩
        · obtain ⟨c, m, k, c0, c1, c2, c3, c4⟩ := b3 r hr
          refine ⟨c, m, k, c0, c1, c2, c3, ?_⟩
          rcases a7 c m c4 with h | ⟨h, h', _⟩
          · exact Or.inl h
          · exact Or.inr ⟨h, h'⟩
    cases o with
    | inc =>
      simp only [Op.run, Option.some.injEq] at h1
      subst h1
      refine fin [] (by simp [logInc]) hi hp (by simp only [logInc]; omega) (by simp [logInc]) (by simp [logInc]) (by simp) ?_
      intro c m h
      left
      simp only [logInc] at h
      omega
    | msg l t mins secs =>
      simp only [Op.run] at h1
      obtain ⟨⟨c1, c2, c3⟩, hx⟩ := msg_some h1
      rcases hx with ⟨d1, d2, d3⟩ | ⟨⟨ls, d1⟩, d2, d3⟩
      · refine fin [] (by rw [d1]; simp) (by rw [c1, hi]) (by rw [c2, hp]) (by omega) (by omega) (by omega) (by simp) ?_
        intro c m h
        have : nextCounter s1 = nextCounter s := by unfold nextCounter; rw [c3, d2, d3]
        rw [this, c3] at h
        rcases h with h | ⟨h, h'⟩
        · exact Or.inl h
        · exact Or.inr ⟨h, h', Or.inl rfl⟩
      · refine fin (ls.mapIdx fun i x => render (header (s.printing l) mins secs) (i + 1) x) (by rw [d1]; exact List.drop_left) (by rw [c1, hi]) (by rw [c2, hp]) (by omega) (by omega) (by omega) ?_ ?_
        · intro i hi'
          rw [List.getElem_mapIdx]
          exact render_at hi hp _ _
        · intro c m h
          have : nextCounter s1 = nextCounter s + 1 := by
            conv => lhs; unfold nextCounter
            rw [d3, c3, d2, if_neg (by simp)]
          rw [this, c3] at h
          rcases h with h | ⟨h, h'⟩
          · exact Or.inl h
          · exact Or.inr ⟨h, by omega, Or.inr (by omega)⟩

/-- Sorting log output (without the first 3 characters of each line) keeps the order of lines of a process, with the
long prefix, as long as counters of phases and of messages have 4 digits, and messages less than 100 lines. -/
theorem C58_sorted_partial (s s' : Log) (id : Nat) (ops : List Op) (gs : List (List Bytes)) (h : runOps ops s = some (s', gs))
    (hi : s.inst = some id) (hp : s.pre = 2) (hlc : s.lastCtr ≤ s.ctr) (hc : s'.ctr < 10 ^ 4) (hm : s.counter + ops.length < 10 ^ 4)
    (hg : ∀ g ∈ gs, g.length < 100) : gs.flatten.Pairwise fun a b => a.drop 3 < b.drop 3 :=
  (sorted_aux id ops s s' gs h hi hp hlc hc hm hg).2.1

/-! ### Environment variable -/

theorem dec_map (n : Nat) : (dec n).map Char.ofNat = Codec.digits n := Ks.ofNat_toNat_digits n

theorem atoi_dec (n : Nat) : atoi (dec n) = n := by
  unfold atoi
  rw [dec_map, Ks.scanInt_digits_end]; rfl

theorem atoi_dec_stop (n c : Nat) (r : Bytes) (hc : Codec.isDigit (Char.ofNat c) = false) : atoi (dec n ++ c :: r) = n := by
  unfold atoi
  rw [List.map_append, dec_map, List.map_cons, Codec.scanInt_digits n _ ⟨_, _, rfl, hc⟩]; rfl

theorem dec_mem (n x : Nat) (h : x ∈ dec n) : 48 ≤ x ∧ x ≤ 57 := by
  obtain ⟨c, hc, rfl⟩ := List.mem_map.mp h
  have := Codec.digits_all n c hc
  simpa [Codec.isDigit] using this

theorem dec_ne_nil (n : Nat) : dec n ≠ [] := by
  intro h
  exact Codec.digits_ne_nil n (List.map_eq_nil_iff.mp h)

theorem dec_head (n : Nat) (r : Bytes) (c : Nat) (hc : 57 < c) : (dec n ++ r).head? ≠ some c := by
  cases hd : dec n with
  | nil => exact absurd hd (dec_ne_nil n)
  | cons a l =>
    have := dec_mem n a (by rw [hd]; simp)
    simp; omega

theorem index_append {c : Nat} {a r : Bytes} (h : c ∉ a) : index c (a ++ r) = index c r := by
  induction a with
  | nil => rfl
  | cons x a ih =>
    simp at h
    rw [List.cons_append, index, if_neg (fun e => h.1 e.symm), ih h.2]

/-- Settings read by `laik_log_init_internal` from `LAIK_LOG=[option]level[:locID[-toID]]`, as described by its
help text; a level of 0 is refused. -/
theorem C58_env (s : Log) (n a b : Nat) (hn : 0 < n) (o : Bytes) (p : Nat)
    (ho : (o = [] ∧ p = s.pre) ∨ (o = txt "n" ∧ p = 0) ∨ (o = txt "s" ∧ p = 1)) :
    initEnv s (o ++ dec n) = some { s with pre := p, level := n } ∧
    initEnv s (o ++ (dec n ++ 58 :: dec a)) = some { s with pre := p, level := n, fromL := a, toL := a } ∧
    initEnv s (o ++ (dec n ++ 58 :: (dec a ++ 45 :: dec b))) = some { s with pre := p, level := n, fromL := a, toL := b } ∧
    initEnv s (o ++ dec 0) = none := by
  have key : ∀ (m : Nat) (r : Bytes), initEnv s (o ++ (dec m ++ r)) = envLevel { s with pre := p } (dec m ++ r) := by
    intro m r
    have h1 := dec_head m r 110 (by omega)
    have h2 := dec_head m r 115 (by omega)
    have hx : envPre s (o ++ (dec m ++ r)) = ({ s with pre := p }, dec m ++ r) := by
      rcases ho with ⟨rfl, rfl⟩ | ⟨rfl, rfl⟩ | ⟨rfl, rfl⟩
      · unfold envPre
        rw [List.nil_append, if_neg h1]
        simp only
        rw [if_neg h2]
      · unfold envPre
        rw [if_pos (show (txt "n" ++ (dec m ++ r)).head? = some 110 from rfl)]
        simp only
        rw [show (txt "n" ++ (dec m ++ r)).drop 1 = dec m ++ r from rfl, if_neg h2]
      · unfold envPre
        rw [if_neg (show ¬ (txt "s" ++ (dec m ++ r)).head? = some 110 by simp [txt])]
        simp only
        rw [if_pos (show (txt "s" ++ (dec m ++ r)).head? = some 115 from rfl)]
        rfl
    unfold initEnv
    rw [hx]
  have i58 : ∀ m, 58 ∉ dec m := fun m h => by have := dec_mem m _ h; omega
  have i45 : ∀ m, 45 ∉ dec m := fun m h => by have := dec_mem m _ h; omega
  have hnil : ∀ c m, c ∉ dec m → index c (dec m) = none := by
    intro c m h
    have := index_append (r := []) h
    rw [List.append_nil] at this
    rw [this]; rfl
  refine ⟨?_, ?_, ?_, ?_⟩
  · have := key n []
    rw [List.append_nil] at this
    rw [this]
    unfold envLevel
    rw [atoi_dec, if_pos (by omega), hnil 58 n (i58 n)]
    simp
  · rw [key n]
    unfold envLevel
    rw [atoi_dec_stop n 58 _ (by decide), if_pos (by omega), index_append (i58 n)]
    simp only [index, if_true, List.drop_one, List.tail_cons]
    rw [hnil 45 a (i45 a)]
    simp [atoi_dec]
  · rw [key n]
    unfold envLevel
    rw [atoi_dec_stop n 58 _ (by decide), if_pos (by omega), index_append (i58 n)]
    simp only [index, if_true, List.drop_one, List.tail_cons]
    rw [index_append (i45 a)]
    simp [index, atoi_dec_stop a 45 _ (by decide), atoi_dec]
  · have := key 0 []
    rw [List.append_nil] at this
    rw [this]
    unfold envLevel
    rw [atoi_dec, if_neg (by omega)]

/-- A range of location IDs in the wrong order is accepted, but then every message which passes the level aborts. -/
theorem C58_filter_fails (s : Log) (n a b id : Nat) (hn : 0 < n) (hab : b < a) (hi : s.inst = some id) (l : Nat) (hl : n ≤ l) (t : Bytes) (mins : Nat) (secs : Bytes) :
    ∃ s', initEnv s (dec n ++ 58 :: (dec a ++ 45 :: dec b)) = some s' ∧ logMsg s' l t mins secs = none := by
  refine ⟨_, (C58_env s n a b hn [] s.pre (Or.inl ⟨rfl, rfl⟩)).2.2.1, ?_⟩
  unfold logMsg logBegin
  rw [if_neg (by simp only; omega)]
  simp only [hi]
  rw [if_pos (by omega), if_neg (by omega)]
  rfl

/-! ### Examples -/

/-- A process with location ID 3 of an instance, log level 1. -/
def demoLog : Log := { Log.start with level := 1, inst := some 3, loc := none }

/-- "  abc de\nf". -/
def demoMsg : Bytes := txt "  abc de\nf"

example : logSteps demoLog 2 [txt "  abc ", txt "de\nf"] 1 (txt "02.500") =
    some { demoLog with cur := 2, size := 1024, counter := 1, out := [txt "== LAIK-0000-L03 0001.01  1:02.500 |   abc de\n", txt ".. LAIK-0000-L03 0001.02  1:02.500 | f\n"] } := by
  decide +kernel

/-- 60 words, more than fits into a line. -/
def longMsg : Bytes := (List.replicate 60 (txt "ab ")).flatten

example : (logSteps demoLog 2 [longMsg] 1 (txt "02.500")).map (fun s => s.out.map List.length) = some [136, 123] := by
  decide +kernel

theorem wordsLe_len {n : Nat} {m : Bytes} (h : m.length ≤ n) : WordsLe n m := by
  intro a w b he _ _
  have := congrArg List.length he
  simp only [List.length_append] at this
  omega

theorem indentLe_len {n : Nat} {m : Bytes} (h : m.length ≤ n) : IndentLe n m := by
  intro a k b he _
  have := congrArg List.length he
  simp only [List.length_append, List.length_replicate] at this
  omega

example : ∃ (s' : Log) (ls : List Line), logSteps demoLog 2 [txt "  abc ", txt "de\nf"] 1 (txt "02.500") = some s' ∧
    Shows ls (txt "  abc de\nf") := by
  obtain ⟨s', ls, h1, _, h2, _⟩ := C58_message_partial demoLog 2 (txt "  abc ") [txt "de\nf"] 1 (txt "02.500") (Or.inl rfl) (fun _ h => absurd h (by decide))
    ⟨by decide, fun _ _ h => absurd h (by decide)⟩ (by decide) (by decide) (by decide) (by decide)
    (wordsLe_len (by decide)) (indentLe_len (by decide))
    ⟨by decide, by decide, fun id h => (by cases h; decide), fun l h => (by cases h), by decide, by decide⟩
  exact ⟨s', ls, h1, h2⟩

/-- Lines without continuation are a message with line feeds. -/
example : Shows [⟨false, 2, txt "abc de"⟩, ⟨false, 0, txt "f"⟩] demoMsg ∧ ¬ Shows [⟨false, 2, txt "abc de"⟩, ⟨true, 6, txt "f"⟩] demoMsg := by
  unfold Shows; decide

example : ∃ s', logSteps { demoLog with fromL := 4, toL := 7 } 2 [demoMsg] 0 [] = some s' ∧ s'.out = [] := by
  obtain ⟨s', h1, h2, _⟩ := C58_hidden { demoLog with fromL := 4, toL := 7 } 2 [demoMsg] 0 [] (fun _ _ => by decide)
    (fun h => absurd (h.2 3 rfl (by decide)).1 (by decide))
  exact ⟨s', h1, h2⟩

example : [List.replicate 1000 120, List.replicate 2000 120].foldlM logAppend { demoLog with cur := 2, size := 1024 } = none :=
  C58_append_fails _ _ _ (by decide) rfl (fun h => by have := congrArg List.length h; rw [List.length_replicate] at this; simp at this)
    (by rw [List.length_replicate]; decide) (by rw [List.length_replicate, List.length_replicate]; decide)

example : logMsg demoLog 2 (List.replicate 300 120) 0 (txt "00.000") = none :=
  C58_long_word_fails _ _ _ _ _ (fun _ h => absurd h (by decide)) ⟨by decide, fun _ _ h => absurd h (by decide)⟩ (by decide)
    (fun h => absurd (List.eq_of_mem_replicate h) (by decide)) (fun h => absurd (List.eq_of_mem_replicate h) (by decide)) (by rw [List.length_replicate]; decide)

/-- Two phases with three messages. -/
def demoOps : List Op := [.msg 2 (txt "a\nb") 0 (txt "00.100"), .msg 2 (txt "c") 0 (txt "00.200"), .inc, .msg 3 (txt "d") 0 (txt "00.300")]

example : (runOps demoOps demoLog).map (·.2) = some [[txt "== LAIK-0000-L03 0001.01  0:00.100 | a\n", txt ".. LAIK-0000-L03 0001.02  0:00.100 | b\n"],
    [txt "== LAIK-0000-L03 0002.01  0:00.200 | c\n"], [], [txt "== LAIK-0001-L03 0001.01  0:00.300 | Warning: d\n"]] := by
  decide +kernel

example : ∃ (s' : Log) (gs : List (List Bytes)), runOps demoOps demoLog = some (s', gs) ∧ gs.flatten.length = 4 ∧ gs.flatten.Pairwise fun a b => a.drop 3 < b.drop 3 := by
  have h : ((runOps demoOps demoLog).isSome && (runOps demoOps demoLog).all fun r => decide (r.2.flatten.length = 4 ∧ r.1.ctr < 10 ^ 4 ∧ ∀ g ∈ r.2, g.length < 100)) = true := by
    decide +kernel
  cases hr : runOps demoOps demoLog with
  | none => rw [hr] at h; simp at h
  | some r =>
    rw [hr] at h
    simp only [Option.isSome_some, Option.all_some, Bool.true_and, decide_eq_true_eq] at h
    exact ⟨r.1, r.2, rfl, h.1, C58_sorted_partial demoLog r.1 3 demoOps r.2 hr rfl rfl (by decide) h.2.1 (by decide) h.2.2⟩

/-- With 10000 messages in one phase, sorting does not keep the order any more. -/
theorem C58_sorted_fails : ∃ s s' : Log, ∃ gs : List (List Bytes), s.counter = 9998 ∧ s.lastCtr = s.ctr ∧
    runOps [.msg 2 (txt "a") 0 (txt "00.100"), .msg 2 (txt "b") 0 (txt "00.200")] s = some (s', gs) ∧
    ¬ gs.flatten.Pairwise (fun a b => a.drop 3 < b.drop 3) := by
  refine ⟨{ demoLog with counter := 9998 }, { demoLog with counter := 10000, cur := 2, size := 1024, out := [txt "== LAIK-0000-L03 9999.01  0:00.100 | a\n", txt "== LAIK-0000-L03 10000.01  0:00.200 | b\n"] },
    [[txt "== LAIK-0000-L03 9999.01  0:00.100 | a\n"], [txt "== LAIK-0000-L03 10000.01  0:00.200 | b\n"]], rfl, rfl, by decide +kernel, by decide +kernel⟩

example : initEnv Log.start (txt "s2:1-3") = some { Log.start with pre := 1, level := 2, fromL := 1, toL := 3 } := by
  have h := (C58_env Log.start 2 1 3 (by decide) (txt "s") 1 (Or.inr (Or.inr ⟨rfl, rfl⟩))).2.2.1
  rw [dec_small (by decide), dec_small (by decide), dec_small (by decide)] at h
  exact h

end Laik.Lg
