import Verif.Model.AsyncLemmas
import Verif.Props.ActionSort
import Verif.Model.SplitReduce
/-!
# Non-blocking communication (C43)
-/

namespace Laik

variable {K β : Type}

/-- What the specification looks at in a converted sequence. -/
def NItem.sendTo (p : Nat) : NItem K β → Option (Nat × Nat)
  | .isend _ q a n => if q = p then some (a, n) else none
  | _ => none

def NItem.recvFrom (p : Nat) : NItem K β → Option (Nat × Nat)
  | .irecv _ q a n => if q = p then some (a, n) else none
  | _ => none

def NItem.starts : NItem K β → Option Nat
  | .isend i _ _ _ => some i
  | .irecv i _ _ _ => some i
  | _ => none

def NItem.waits : NItem K β → Option Nat
  | .wait i => some i
  | _ => none

/-- Actions done at their original place. -/
def NItem.acts : NItem K β → Option (NbAct K β)
  | .isend _ p a n => some (.send p a n)
  | .other o => some (.other o)
  | _ => none

def NbAct.sendTo (p : Nat) : NbAct K β → Option (Nat × Nat)
  | .send q a n => if q = p then some (a, n) else none
  | _ => none

def NbAct.recvFrom (p : Nat) : NbAct K β → Option (Nat × Nat)
  | .recv q a n => if q = p then some (a, n) else none
  | _ => none

def NbAct.noRecv : NbAct K β → Option (NbAct K β)
  | .recv _ _ _ => none
  | c => some c

/-- Result of conversion and sorting by rounds. -/
theorem async_result {l : List (Act (NbAct K β))} (hl : l.Pairwise (fun a b => a.round ≤ b.round))
    {s : List (Act (NItem K β) × Nat)} (h : IsPtrSort cmpRounds (asyncSendRecv l) s) :
    ∃ r, sortSeq (asyncSendRecv l) s = some r ∧
      r.map (·.content) = .req (reqCount l) :: (irecvsOf 0 (l.map (·.content)) ++ midsOf 0 (l.map (·.content)) ++
        swaitsOf 0 (l.map (·.content))) := by
  obtain ⟨r, h1, _, _, h4⟩ := sortSeq_reordered (same := fun _ _ => True) h (fun _ _ => cmpRounds_round)
    (by
      intro a b h hr _
      rw [cmpRounds_le] at h
      omega)
  refine ⟨r, h1, ?_⟩
  have := congrArg (List.map (·.2)) h4
  rw [← async_form l hl s h]
  simpa [List.map_map, Function.comp_def, Act.er] using this

theorem parts_sendTo (p : Nat) (L : List (NbAct K β)) : ∀ id,
    (irecvsOf id L).filterMap (NItem.sendTo p) = [] ∧ (swaitsOf id L).filterMap (NItem.sendTo p) = [] ∧
    (midsOf id L).filterMap (NItem.sendTo p) = L.filterMap (NbAct.sendTo p) ∧
    (midsOf id L).filterMap (NItem.recvFrom p) = [] ∧ (swaitsOf id L).filterMap (NItem.recvFrom p) = [] ∧
    (irecvsOf id L).filterMap (NItem.recvFrom p) = L.filterMap (NbAct.recvFrom p) := by
  induction L with
  | nil => intro id; simp [irecvsOf, midsOf, swaitsOf]
  | cons a L ih =>
    intro id
    cases a with
    | send q a n =>
      have := ih (id + 1)
      by_cases c : q = p <;>
        simp only [irecvsOf, midsOf, swaitsOf, List.filterMap_cons, NItem.sendTo, NItem.recvFrom, NbAct.sendTo,
          NbAct.recvFrom, c, if_true, if_false, this.1, this.2.1, this.2.2.1, this.2.2.2.1, this.2.2.2.2.1,
          this.2.2.2.2.2] <;> trivial
    | recv q a n =>
      have := ih (id + 1)
      by_cases c : q = p <;>
        simp only [irecvsOf, midsOf, swaitsOf, List.filterMap_cons, NItem.sendTo, NItem.recvFrom, NbAct.sendTo,
          NbAct.recvFrom, c, if_true, if_false, this.1, this.2.1, this.2.2.1, this.2.2.2.1, this.2.2.2.2.1,
          this.2.2.2.2.2] <;> trivial
    | other o =>
      have := ih id
      simp only [irecvsOf, midsOf, swaitsOf, List.filterMap_cons, NItem.sendTo, NItem.recvFrom, NbAct.sendTo,
        NbAct.recvFrom, this.1, this.2.1, this.2.2.1, this.2.2.2.1, this.2.2.2.2.1, this.2.2.2.2.2]
      trivial

/-- Conversion and sorting keeps the order and buffers of sends to, and of
receives from each peer. -/
theorem C43_order (l : List (Act (NbAct K β))) (hl : l.Pairwise (fun a b => a.round ≤ b.round))
    (s : List (Act (NItem K β) × Nat)) (h : IsPtrSort cmpRounds (asyncSendRecv l) s) :
    ∃ r, sortSeq (asyncSendRecv l) s = some r ∧
      ∀ p, (r.map (·.content)).filterMap (NItem.sendTo p) = (l.map (·.content)).filterMap (NbAct.sendTo p) ∧
        (r.map (·.content)).filterMap (NItem.recvFrom p) = (l.map (·.content)).filterMap (NbAct.recvFrom p) := by
  obtain ⟨r, h1, h2⟩ := async_result hl h
  refine ⟨r, h1, ?_⟩
  intro p
  rw [h2]
  obtain ⟨a1, a2, a3, a4, a5, a6⟩ := parts_sendTo p (l.map (·.content)) 0
  simp only [List.filterMap_cons, List.filterMap_append, a1, a2, a3, a4, a5, a6, NItem.sendTo, NItem.recvFrom]
  simp

/-- Number of communication operations. -/
def commCount : List (NbAct K β) → Nat
  | [] => 0
  | .other _ :: l => commCount l
  | _ :: l => commCount l + 1

theorem parts_starts (L : List (NbAct K β)) : ∀ id,
    ((irecvsOf id L ++ midsOf id L).filterMap NItem.starts).Perm (List.range' id (commCount L)) ∧
    ((midsOf id L ++ swaitsOf id L).filterMap NItem.waits).Perm (List.range' id (commCount L)) ∧
    (irecvsOf id L).filterMap NItem.waits = [] ∧ (swaitsOf id L).filterMap NItem.starts = [] := by
  induction L with
  | nil => intro id; simp [irecvsOf, midsOf, swaitsOf, commCount]
  | cons a L ih =>
    intro id
    cases a with
    | send q a n =>
      obtain ⟨h1, h2, h3, h4⟩ := ih (id + 1)
      simp only [irecvsOf, midsOf, swaitsOf, commCount, List.range'_succ, h3, List.filterMap_append,
        List.filterMap_cons, NItem.starts, NItem.waits] at h1 h2 ⊢
      refine ⟨List.perm_middle.trans (h1.cons _), List.perm_middle.trans (h2.cons _), trivial, h4⟩
    | recv q a n =>
      obtain ⟨h1, h2, h3, h4⟩ := ih (id + 1)
      simp only [irecvsOf, midsOf, swaitsOf, commCount, List.range'_succ, h3, List.filterMap_append,
        List.filterMap_cons, NItem.starts, NItem.waits] at h1 h2 ⊢
      exact ⟨h1.cons _, h2.cons _, trivial, h4⟩
    | other o =>
      obtain ⟨h1, h2, h3, h4⟩ := ih id
      simp only [irecvsOf, midsOf, swaitsOf, commCount, h3, List.filterMap_append,
        List.filterMap_cons, NItem.starts, NItem.waits] at h1 h2 ⊢
      exact ⟨h1, h2, trivial, h4⟩

theorem reqCount_eq (l : List (Act (NbAct K β))) : reqCount l = commCount (l.map (·.content)) := by
  unfold reqCount
  induction l with
  | nil => rfl
  | cons a l ih =>
    obtain ⟨r, k, c⟩ := a
    cases c <;> simp [List.filter_cons, commCount, ih]

/-- Wait in the middle part: the receive was started before. -/
theorem mids_wait (L : List (NbAct K β)) : ∀ id P Q i, midsOf id L = P ++ NItem.wait i :: Q →
    i ∈ (irecvsOf id L).filterMap NItem.starts := by
  induction L with
  | nil => intro id P Q i h; simp [midsOf] at h
  | cons a L ih =>
    intro id P Q i h
    cases a with
    | send q a n =>
      cases P with
      | nil => simp [midsOf] at h
      | cons b P =>
        simp only [midsOf, List.cons_append, List.cons.injEq] at h
        exact ih _ P Q i h.2
    | recv q a n =>
      simp only [irecvsOf, List.filterMap_cons, NItem.starts, List.mem_cons]
      cases P with
      | nil =>
        simp only [midsOf, List.nil_append, List.cons.injEq, NItem.wait.injEq] at h
        exact Or.inl h.1.symm
      | cons b P =>
        simp only [midsOf, List.cons_append, List.cons.injEq] at h
        exact Or.inr (ih _ P Q i h.2)
    | other o =>
      cases P with
      | nil => simp [midsOf] at h
      | cons b P =>
        simp only [midsOf, List.cons_append, List.cons.injEq] at h
        exact ih _ P Q i h.2

theorem swaits_started (L : List (NbAct K β)) : ∀ id i, i ∈ (swaitsOf id L).filterMap NItem.waits →
    i ∈ (midsOf id L).filterMap NItem.starts := by
  induction L with
  | nil => intro id i h; simp [swaitsOf] at h
  | cons a L ih =>
    intro id i h
    cases a with
    | send q a n =>
      simp only [swaitsOf, midsOf, List.filterMap_cons, NItem.starts, NItem.waits, List.mem_cons] at h ⊢
      exact h.imp id' (ih _ i)
    | recv q a n =>
      simp only [swaitsOf, midsOf, List.filterMap_cons, NItem.starts] at h ⊢
      exact ih _ i h
    | other o =>
      simp only [swaitsOf, midsOf, List.filterMap_cons, NItem.starts] at h ⊢
      exact ih _ i h
where id' {p : Prop} (h : p) : p := h

/-- Every request of the announced number is started exactly once and waited for
exactly once; no other request is used; the wait comes after the start. -/
theorem C43_waits (l : List (Act (NbAct K β))) (hl : l.Pairwise (fun a b => a.round ≤ b.round))
    (s : List (Act (NItem K β) × Nat)) (h : IsPtrSort cmpRounds (asyncSendRecv l) s) :
    ∃ r R n, sortSeq (asyncSendRecv l) s = some r ∧ r.map (·.content) = .req n :: R ∧
      n = (l.map (·.content)).countP (fun c => match c with | .other _ => false | _ => true) ∧
      (R.filterMap NItem.starts).Perm (List.range n) ∧ (R.filterMap NItem.waits).Perm (List.range n) ∧
      ∀ P Q i, R = P ++ .wait i :: Q → i ∈ P.filterMap NItem.starts := by
  obtain ⟨r, h1, h2⟩ := async_result hl h
  have hc : ∀ L : List (NbAct K β), commCount L = L.countP (fun c => match c with | .other _ => false | _ => true) := by
    intro L
    induction L with
    | nil => rfl
    | cons a L ih => cases a <;> simp [commCount, ih]
  refine ⟨r, _, _, h1, h2, by rw [reqCount_eq, hc], ?_, ?_, ?_⟩
  · obtain ⟨a1, a2, a3, a4⟩ := parts_starts (l.map (·.content)) 0
    rw [List.filterMap_append, a4, List.append_nil, reqCount_eq, List.range_eq_range']
    exact a1
  · obtain ⟨a1, a2, a3, a4⟩ := parts_starts (l.map (·.content)) 0
    rw [List.append_assoc, List.filterMap_append, a3, List.nil_append, reqCount_eq, List.range_eq_range']
    exact a2
  · intro P Q i e
    generalize l.map (·.content) = L at e
    rcases List.append_eq_append_iff.1 e with ⟨P', e1, e2⟩ | ⟨Q', e1, e2⟩
    · -- wait is in the last part
      rw [e1, List.filterMap_append, List.mem_append]
      refine Or.inl ?_
      rw [List.filterMap_append, List.mem_append]
      refine Or.inr (swaits_started L 0 i ?_)
      rw [e2]
      simp [NItem.waits]
    · cases Q' with
      | nil =>
        simp only [List.append_nil, List.nil_append] at e1 e2
        rw [← e1, List.filterMap_append, List.mem_append]
        refine Or.inr (swaits_started L 0 i ?_)
        rw [← e2]
        simp [NItem.waits]
      | cons b Q' =>
        simp only [List.cons_append, List.cons.injEq] at e2
        obtain ⟨rfl, e2⟩ := e2
        rcases List.append_eq_append_iff.1 e1 with ⟨P', e3, e4⟩ | ⟨P', e3, e4⟩
        · rw [e3, List.filterMap_append, List.mem_append]
          exact Or.inl (mids_wait L 0 P' Q' i e4)
        · have hno := (parts_starts L 0).2.2.1
          cases P' with
          | nil =>
            simp only [List.append_nil, List.nil_append] at e3 e4
            rw [← e3]
            exact mids_wait L 0 [] Q' i e4.symm
          | cons b P' =>
            simp only [List.cons_append, List.cons.injEq] at e4
            obtain ⟨rfl, e4⟩ := e4
            rw [e3] at hno
            simp [NItem.waits] at hno

theorem mids_append (A B : List (NbAct K β)) : ∀ id, midsOf id (A ++ B) = midsOf id A ++ midsOf (id + commCount A) B := by
  induction A with
  | nil => intro id; simp [midsOf, commCount]
  | cons a A ih =>
    intro id
    cases a <;> simp [midsOf, commCount, ih, Nat.add_assoc, Nat.add_comm 1]

theorem irecvs_append (A B : List (NbAct K β)) : ∀ id, irecvsOf id (A ++ B) = irecvsOf id A ++ irecvsOf (id + commCount A) B := by
  induction A with
  | nil => intro id; simp [irecvsOf, commCount]
  | cons a A ih =>
    intro id
    cases a <;> simp [irecvsOf, commCount, ih, Nat.add_assoc, Nat.add_comm 1]

theorem parts_acts (L : List (NbAct K β)) : ∀ id,
    (irecvsOf id L).filterMap NItem.acts = [] ∧ (swaitsOf id L).filterMap NItem.acts = [] ∧
    (midsOf id L).filterMap NItem.acts = L.filterMap NbAct.noRecv := by
  induction L with
  | nil => intro id; simp [irecvsOf, midsOf, swaitsOf]
  | cons a L ih =>
    intro id
    cases a with
    | send q a n => 
      have := ih (id + 1)
      simp only [irecvsOf, midsOf, swaitsOf, List.filterMap_cons, NItem.acts, NbAct.noRecv, this.1, this.2.1, this.2.2]
      trivial
    | recv q a n => 
      have := ih (id + 1)
      simp only [irecvsOf, midsOf, swaitsOf, List.filterMap_cons, NItem.acts, NbAct.noRecv, this.1, this.2.1, this.2.2]
      trivial
    | other o => 
      have := ih id
      simp only [irecvsOf, midsOf, swaitsOf, List.filterMap_cons, NItem.acts, NbAct.noRecv, this.1, this.2.1, this.2.2]
      trivial

/-- The wait for a receive takes its place: with `A` the actions before and `B`
the actions after a receive, exactly the actions of `B` (sends and local
operations, in the same order) come after the wait. -/
theorem C43_wait_before_use (l : List (Act (NbAct K β))) (hl : l.Pairwise (fun a b => a.round ≤ b.round))
    (s : List (Act (NItem K β) × Nat)) (h : IsPtrSort cmpRounds (asyncSendRecv l) s)
    (A B : List (NbAct K β)) (p a n : Nat) (hAB : l.map (·.content) = A ++ .recv p a n :: B) :
    ∃ r P Q i, sortSeq (asyncSendRecv l) s = some r ∧ r.map (·.content) = P ++ .wait i :: Q ∧
      .irecv i p a n ∈ P ∧ P.filterMap NItem.acts = A.filterMap NbAct.noRecv ∧
      Q.filterMap NItem.acts = B.filterMap NbAct.noRecv := by
  obtain ⟨r, h1, h2⟩ := async_result hl h
  have hm := mids_append A (.recv p a n :: B) 0
  have hi := irecvs_append A (.recv p a n :: B) 0
  rw [hAB] at h2
  have hm' : midsOf 0 (A ++ .recv p a n :: B) =
      midsOf 0 A ++ .wait (0 + commCount A) :: midsOf (0 + commCount A + 1) B := hm
  refine ⟨r, .req (reqCount l) :: (irecvsOf 0 (A ++ .recv p a n :: B) ++ midsOf 0 A),
    midsOf (0 + commCount A + 1) B ++ swaitsOf 0 (A ++ .recv p a n :: B), 0 + commCount A, h1, ?_, ?_, ?_, ?_⟩
  · rw [h2, hm']
    simp
  · rw [hi]
    simp [irecvsOf]
  · have e1 := (parts_acts (A ++ .recv p a n :: B) 0).1
    have e2 := (parts_acts A 0).2.2
    simp only [List.filterMap_cons, List.filterMap_append, NItem.acts, e1, e2, List.nil_append]
  · have e1 := (parts_acts (A ++ .recv p a n :: B) 0).2.1
    have e2 := (parts_acts B (0 + commCount A + 1)).2.2
    simp only [List.filterMap_append, e1, e2, List.append_nil]

/-! ### Same effect -/

variable [DecidableEq K]

/-- If no action before a receive uses its buffer, and no action after a send
changes its buffer, all executions of the converted sequence give the same
memory and messages as the blocking execution.  Missing: the condition is not
established by the code, see `C43_send_race`. -/
theorem C43_same_effect_partial (inp : Nat → Nat → Nat → β) (l : List (Act (NbAct K β)))
    (hl : l.Pairwise (fun a b => a.round ≤ b.round))
    (s : List (Act (NItem K β) × Nat)) (h : IsPtrSort cmpRounds (asyncSendRecv l) s)
    (hind : AsyncIndep (l.map (·.content))) (m : MSt K β) :
    ∃ r, sortSeq (asyncSendRecv l) s = some r ∧
      ∀ st, AsSteps inp (r.map (·.content), NSta.start m) ([], st) → st.pend = [] →
        st.s = (runB inp (l.map (·.content)) (BSt.start m)).s ∧
        ∀ p k, st.sent p k = ((runB inp (l.map (·.content)) (BSt.start m)).sent p)[k]? := by
  obtain ⟨r, h1, h2⟩ := async_result hl h
  refine ⟨r, h1, ?_⟩
  intro st hst hp
  rw [h2] at hst
  generalize l.map (·.content) = L at hst hind ⊢
  have hreach : ∀ c, AsSteps inp (.req (reqCount l) :: (irecvsOf 0 L ++ midsOf 0 L ++ swaitsOf 0 L), NSta.start m) c →
      AReach inp L m c := by
    intro c hc
    induction hc with
    | refl =>
      refine Or.inl ⟨[], recvTab 0 (fun _ => 0) L, rfl, recvTab_numbered L 0 _, ?_, Or.inl ⟨reqCount l, ?_⟩⟩
      · refine ⟨by simp [NSta.start], hind, by simp [NSta.start], by simp [NSta.start], ?_, ?_, rfl, rfl, ?_, ?_⟩
        · intro i p a n k hT hU
          exact absurd hT hU
        · intro x _; rfl
        · intro p; simp [NSta.start, BSt.start]
        · intro p k _; simp [NSta.start, BSt.start]
      · show _ :: _ = _
        rw [irecvs_tab L 0 (fun _ => 0), List.append_assoc]
    | tail b c hab hbc ih => exact areach_step ih hbc
  have fin : ∀ id, AInv inp [] id [] (runB inp L (BSt.start m)) st →
      st.s = (runB inp L (BSt.start m)).s ∧ ∀ p k, st.sent p k = ((runB inp L (BSt.start m)).sent p)[k]? := by
    intro id hI
    constructor
    · have hm : st.s.mem = (runB inp L (BSt.start m)).s.mem := by
        funext x
        refine hI.mem x ?_
        intro i p a n k hT
        simp [recvTab] at hT
      have h1 := hI.pos
      have h2 := hI.out
      generalize (runB inp L (BSt.start m)).s = t at hm h1 h2 ⊢
      generalize st.s = u at hm h1 h2 ⊢
      cases u; cases t
      simp_all
    · intro p k
      exact hI.sent p k (by simp [hp])
  have midnil : ∀ (R : List (NbAct K β)) id (W : List (NItem K β)), [] = midsOf id R ++ W → R = [] := by
    intro R id W e
    cases R with
    | nil => rfl
    | cons a R => cases a <;> simp [midsOf] at e
  rcases hreach _ hst with ⟨T, U, hT, hN, hI, ⟨n, hP⟩ | hP⟩ | ⟨dn, rest, id, hl, hP, hI⟩ | ⟨_, id, hI⟩
  · cases hP
  · cases U with
    | nil =>
      have := midnil L 0 _ hP
      subst this
      exact fin 0 hI
    | cons r U => simp at hP
  · have := midnil rest id _ hP
    subst this
    rw [List.append_nil] at hl
    subst hl
    exact fin id hI
  · exact fin id hI

/-! ### Non-trivial case -/

/-- Add the number at `src` to the one at `dst`. -/
def addCell (dst src : Nat) : MOp Unit Nat where
  R y := y = src ∨ y = dst
  W x := decide (x = dst)
  val m _ x := m x + m src
  key := none
  outB _ := []
  adv := 0
  val_local m m' p x h hx := by
    simp only [decide_eq_true_eq] at hx
    rw [h x (Or.inr hx), h src (Or.inl rfl)]
  out_local _ _ _ := rfl

/-- A process sends its input (cell 0), receives into a temporary buffer (cell
2), and reduces into an output buffer (cell 1). -/
def exAsync : List (Act (NbAct Unit Nat)) :=
  [⟨0, .send 1, .send 1 0 1⟩, ⟨0, .recv 1, .recv 1 2 1⟩, ⟨1, .other, .other (copyOp 0 1 1)⟩, ⟨1, .other, .other (addCell 1 2)⟩]

example : exAsync.Pairwise (fun a b => a.round ≤ b.round) := by decide

example : ∃ s, IsPtrSort cmpRounds (asyncSendRecv exAsync) s := ptrSort_rounds_exists _

example : reqCount exAsync = 2 := by decide

example : AsyncIndep (exAsync.map (·.content)) := by
  unfold AsyncIndep exAsync
  simp only [List.map_cons, List.map_nil, List.pairwise_cons, List.mem_cons, List.not_mem_nil, or_false]
  simp [NbAct.reads, NbAct.writes, copyOp, addCell]
  omega

/-! ### Disagreement: buffers of sends are changed before the wait -/

/-- Actions of a reduction of one number with input and output in the same
buffer (cell 0) and slots at cells 1…; others than used below are left out. -/
def raAct : RA → Option (Act (NbAct Unit Nat))
  | .send q => some ⟨0, .send q, .send q 0 1⟩
  | .recvSlot i q => some ⟨0, .recv q, .recv q (1 + i) 1⟩
  | .recvRes q => some ⟨2, .recv q, .recv q 0 1⟩
  | .redSlot i => some ⟨1, .other, .other (addCell 0 (1 + i))⟩
  | _ => none

/-- In-place reduction of two processes as generated by
`laik_aseq_addReduce2Rounds`: the own input 5 has to be sent to process 1, but
there is an execution of the converted sequence sending the result 12. -/
theorem C43_send_race :
    ∃ A l, reduce2 (V := Nat) ⟨(· + ·), 0, fun _ => true⟩ [0, 1] [0, 1] 0 = some A ∧ A.mapM raAct = some l ∧
    ∀ s, IsPtrSort cmpRounds (asyncSendRecv l) s → ∃ r, sortSeq (asyncSendRecv l) s = some r ∧
    ∃ (m : MSt Unit Nat) (st : NSta Unit Nat), (runB (fun _ _ _ => 7) (l.map (·.content)) (BSt.start m)).sent 1 = [[5]] ∧
      AsSteps (fun _ _ _ => 7) (r.map (·.content), NSta.start m) ([], st) ∧ st.pend = [] ∧ st.sent 1 0 = some [12] := by
  refine ⟨[.send 1, .recvSlot 0 1, .redSlot 0], [⟨0, .send 1, .send 1 0 1⟩, ⟨0, .recv 1, .recv 1 1 1⟩,
    ⟨1, .other, .other (addCell 0 1)⟩], by decide, rfl, ?_⟩
  intro s hs
  obtain ⟨r, h1, h2⟩ := async_result (by decide) hs
  refine ⟨r, h1, ⟨fun _ => 5, fun _ => 0, fun _ => []⟩, ?_⟩
  rw [h2]
  let snd : Pend := .snd 0 1 0 1 0
  let rcv : Pend := .rcv 1 1 1 1 0
  have hx : ∃ st : NSta Unit Nat, AsSteps (fun _ _ _ => 7) ([.req 2, .irecv 1 1 1 1, .isend 0 1 0 1, .wait 1,
      .other (addCell 0 1), .wait 0], NSta.start ⟨fun _ => 5, fun _ => 0, fun _ => []⟩) ([], st) ∧
      st.pend = [] ∧ st.sent 1 0 = some [12] := by
    refine ⟨_, .head (.req 2 _ _) (.head (.irecv 1 1 1 1 _ _) (.head (.isend 0 1 0 1 _ _)
      (.head (.compl rcv _ _ ?_) (.head (.wait 1 _ _ ?_) (.head (.other _ _ _)
      (.head (.compl snd _ _ ?_) (.head (.wait 0 _ _ ?_) (.refl _)))))))), ?_, ?_⟩
    · decide
    · decide
    · decide
    · decide
    · rfl
    · rfl
  obtain ⟨st, h3, h4, h5⟩ := hx
  exact ⟨st, by decide, h3, h4, h5⟩

/-- In-place reduction with three rounds on a process which is not the root: the
receive of the result is started before the own input is sent from the same
buffer, that is, the buffer is used before the wait for the receive. -/
theorem C43_recv_buffer_used_early :
    ∃ A l, reduce3 (V := Nat) ⟨(· + ·), 0, fun _ => true⟩ [0, 1] [0, 1] 1 = some A ∧ A.mapM raAct = some l ∧
    ∀ s, IsPtrSort cmpRounds (asyncSendRecv l) s → ∃ r, sortSeq (asyncSendRecv l) s = some r ∧
    r.map (·.content) = [.req 2, .irecv 1 0 0 1, .isend 0 0 0 1, .wait 1, .wait 0] := by
  refine ⟨[.send 0, .recvRes 0], [⟨0, .send 0, .send 0 0 1⟩, ⟨2, .recv 0, .recv 0 0 1⟩], by decide, rfl, ?_⟩
  intro s hs
  obtain ⟨r, h1, h2⟩ := async_result (by decide) hs
  exact ⟨r, h1, h2⟩

end Laik
