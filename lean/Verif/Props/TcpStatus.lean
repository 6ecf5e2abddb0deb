import Verif.Model.TcpStatus

/-! # C74: status command of the TCP2 backend -/

namespace Laik.Sg

open Codec

/-- Entry of a process, from the tables. -/
def shown (T : Tab) (i : Nat) : Proc where
  loc := (T.peer i).location.getD []
  host := (T.peer i).host.getD []
  port := (T.peer i).port
  bin := (T.peer i).bin
  conn := (T.peer i).fd
  state := (stateString (if T.mylid = some i then T.mystate else (T.peer i).state)).getD []

/-- Connections of clients not known: in use and without LID. -/
def strange (T : Tab) (i : Nat) : Bool := decide ((T.fds i).state ≠ .invalid) && (T.fds i).lid.isNone

/-- Entry of such a connection. -/
def shownConn (T : Tab) (fd i : Nat) : Client where
  fd := i
  this := decide (i = fd)
  state := (stateString (T.fds i).state).getD []
  queued := (T.fds i).cmd

theorem app_ok {a b : Except Fault (List Text)} {r : List Text} :
    app a b = .ok r ↔ ∃ x y, a = .ok x ∧ b = .ok y ∧ r = x ++ y := by
  unfold app
  cases a with
  | error e => simp
  | ok x =>
    cases b with
    | error e => simp
    | ok y =>
      simp only [Except.ok.injEq]
      constructor
      · intro h; exact ⟨x, y, rfl, rfl, h.symm⟩
      · rintro ⟨x', y', h1, h2, h3⟩; rw [h1, h2, h3]

theorem put_ok {t : Text} {r : List Text} : put t = .ok r ↔ t.length < 200 ∧ r = [t] := by
  unfold put Nm.sprintfTo
  by_cases h : t.length + 1 ≤ 200
  · rw [if_pos h]
    simp only [Except.ok.injEq]
    constructor
    · intro e; exact ⟨by omega, e.symm⟩
    · intro e; exact e.2.symm
  · rw [if_neg h]
    simp only [reduceCtorEq, false_iff]
    intro e; omega

theorem pad2_eq (n : Nat) : pad2 n = two n := by
  have := Nm.digits_length_iff n 1 (by decide)
  unfold pad2 two
  by_cases h : n < 10
  · rw [if_pos (by omega), if_pos h]; rfl
  · rw [if_neg (by omega), if_neg h]; rfl

/-- The texts of states are short; only the state of unused entries has none. -/
theorem stateString_some (s : PS) : (s = .invalid ∧ stateString s = none) ∨ ∃ t, stateString s = some t ∧ t.length ≤ 80 ∧ s ≠ .invalid := by
  cases s
  · exact Or.inl ⟨rfl, rfl⟩
  all_goals exact Or.inr ⟨_, rfl, by decide +kernel, by decide⟩

theorem stateOf_eq (T : Tab) (i : Nat) : stateOf T i = if T.mylid = some i then T.mystate else (T.peer i).state := by
  unfold stateOf
  by_cases h : T.mylid = some i
  · rw [if_pos h, if_pos h.symm]
  · rw [if_neg h, if_neg (fun e => h e.symm)]

/-- An entry which can be printed. -/
structure Printable (T : Tab) (i : Nat) : Prop where
  loc : (T.peer i).location ≠ none
  host : (T.peer i).host ≠ none
  state : (if T.mylid = some i then T.mystate else (T.peer i).state) ≠ .invalid
  len : (procText i (shown T i)).length < 200
  conn : ∀ f, (T.peer i).fd = some f → (connText f).length < 200

theorem outPeer_ok (T : Tab) (i : Nat) (r : List Text) : outPeer T i = .ok r ↔ Printable T i ∧ r = procLines i (shown T i) := by
  unfold outPeer
  dsimp only
  cases hl : (T.peer i).location with
  | none => simp only [reduceCtorEq, false_iff]; rintro ⟨h, _⟩; exact h.loc hl
  | some l =>
    cases hh : (T.peer i).host with
    | none => simp only [reduceCtorEq, false_iff]; rintro ⟨h, _⟩; exact h.host hh
    | some h =>
      dsimp only
      rw [stateOf_eq]
      rcases stateString_some (if T.mylid = some i then T.mystate else (T.peer i).state) with ⟨h1, h2⟩ | ⟨t, h1, h2, h3⟩
      · simp only [h2]
        constructor
        · intro e
          obtain ⟨x, y, _, e2, _⟩ := app_ok.1 e
          obtain ⟨_, _, _, e4, _⟩ := app_ok.1 e2
          cases e4
        · rintro ⟨p, _⟩; exact absurd h1 p.state
      · have hs : (shown T i).state = t := by simp only [shown, h1, Option.getD_some]
        have hp : tLid ++ pad2 i ++ tLoc ++ l ++ tHost ++ h ++ tPort ++ printInt (T.peer i).port ++
            tFlags ++ [if (T.peer i).bin then 'b' else '-'] = procText i (shown T i) := by
          simp only [procText, shown, hl, hh, Option.getD_some, pad2_eq]
        have hst : (stateText t).length < 200 := by
          have : (stateText t).length = t.length + 18 := by
            unfold stateText
            have : tState.length = 17 := by decide +kernel
            simp only [List.length_append, this, List.length_singleton]; omega
          omega
        rw [hp]
        simp only [h1]
        constructor
        · intro e
          obtain ⟨x, y, e1, e2, e3⟩ := app_ok.1 e
          obtain ⟨x2, y2, e4, e5, e6⟩ := app_ok.1 e2
          obtain ⟨g1, g2⟩ := put_ok.1 e1
          obtain ⟨_, g4⟩ := put_ok.1 e5
          cases hf : (T.peer i).fd with
          | none =>
            simp only [hf] at e4
            cases e4
            refine ⟨⟨by rw [hl]; simp, by rw [hh]; simp, h3, g1, fun f ef => by rw [hf] at ef; cases ef⟩, ?_⟩
            have hc : (shown T i).conn = none := hf
            rw [e3, g2, e6, g4, procLines, hc, hs]
            rfl
          | some f =>
            simp only [hf] at e4
            obtain ⟨g5, g6⟩ := put_ok.1 e4
            refine ⟨⟨by rw [hl]; simp, by rw [hh]; simp, h3, g1, fun f' ef => by rw [hf] at ef; cases ef; exact g5⟩, ?_⟩
            have hc : (shown T i).conn = some f := hf
            rw [e3, g2, e6, g4, g6, procLines, hc, hs]
            rfl
        · rintro ⟨p, e⟩
          refine app_ok.2 ⟨_, _, put_ok.2 ⟨p.len, rfl⟩, app_ok.2 ⟨(T.peer i).fd.toList.map connText, _, ?_, put_ok.2 ⟨hst, rfl⟩, rfl⟩, ?_⟩
          · cases hf : (T.peer i).fd with
            | none => rfl
            | some f => exact put_ok.2 ⟨p.conn f hf, rfl⟩
          · rw [e, procLines, hs]; rfl

theorem outPeers_ok (T : Tab) : ∀ (l : List Nat) (r : List Text),
    outPeers T l = .ok r ↔ (∀ i ∈ l, Printable T i) ∧ r = l.flatMap fun i => procLines i (shown T i)
  | [], r => by
    simp only [outPeers, Except.ok.injEq, List.not_mem_nil, false_implies, implies_true, true_and, List.flatMap_nil]
    exact ⟨Eq.symm, Eq.symm⟩
  | i :: l, r => by
    rw [outPeers, app_ok]
    constructor
    · rintro ⟨x, y, h1, h2, h3⟩
      obtain ⟨p, hx⟩ := (outPeer_ok T i x).1 h1
      obtain ⟨q, hy⟩ := (outPeers_ok T l y).1 h2
      refine ⟨?_, by rw [h3, hx, hy]; rfl⟩
      intro j hj
      rcases List.mem_cons.1 hj with e | e
      · rw [e]; exact p
      · exact q j e
    · rintro ⟨h, e⟩
      refine ⟨_, _, (outPeer_ok T i _).2 ⟨h i List.mem_cons_self, rfl⟩,
        (outPeers_ok T l _).2 ⟨fun j hj => h j (List.mem_cons_of_mem _ hj), rfl⟩, by rw [e]; rfl⟩

/-- Texts for a connection which can be printed. -/
structure ConnFits (T : Tab) (fd i : Nat) : Prop where
  len : (clientText (shownConn T fd i)).length < 200
  queued : ∀ c, (T.fds i).cmd = some c → (queuedText c).length < 200

theorem outConn_ok (T : Tab) (fd i : Nat) (hi : (T.fds i).state ≠ .invalid) (r : List Text) :
    outConn T fd i = .ok r ↔ ConnFits T fd i ∧ r = clientLines (shownConn T fd i) := by
  unfold outConn
  rcases stateString_some (T.fds i).state with ⟨h1, _⟩ | ⟨t, h1, h2, h3⟩
  · exact absurd h1 hi
  · have hp : tAt ++ pad2 i ++ (if i = fd then tThis else []) ++ tSt ++ t ++ ['\''] =
        clientText (shownConn T fd i) := by
      simp only [clientText, shownConn, h1, Option.getD_some, pad2_eq, decide_eq_true_eq]
    simp only [h1]
    rw [hp]
    constructor
    · intro e
      obtain ⟨x, y, e1, e2, e3⟩ := app_ok.1 e
      obtain ⟨g1, g2⟩ := put_ok.1 e1
      cases hc : (T.fds i).cmd with
      | none =>
        simp only [hc] at e2
        cases e2
        refine ⟨⟨g1, fun c ec => by rw [hc] at ec; cases ec⟩, ?_⟩
        have hq : (shownConn T fd i).queued = none := hc
        rw [e3, g2, clientLines, hq]; rfl
      | some c =>
        simp only [hc] at e2
        obtain ⟨g3, g4⟩ := put_ok.1 e2
        refine ⟨⟨g1, fun c' ec => by rw [hc] at ec; cases ec; exact g3⟩, ?_⟩
        have hq : (shownConn T fd i).queued = some c := hc
        rw [e3, g2, g4, clientLines, hq]; rfl
    · rintro ⟨p, e⟩
      refine app_ok.2 ⟨_, (T.fds i).cmd.toList.map queuedText, put_ok.2 ⟨p.len, rfl⟩, ?_, by rw [e]; rfl⟩
      cases hc : (T.fds i).cmd with
      | none => rfl
      | some c => exact put_ok.2 ⟨p.queued c hc, rfl⟩

theorem outConns_ok (T : Tab) (fd : Nat) : ∀ (l : List Nat) (sent : Bool) (r : List Text),
    outConns T fd sent l = .ok r ↔ (∀ i ∈ l, strange T i = true → ConnFits T fd i) ∧
      r = (if sent || (l.filter (strange T)).isEmpty then [] else [tUnknown]) ++
        ((l.filter (strange T)).map (shownConn T fd)).flatMap clientLines
  | [], sent, r => by
    simp only [outConns, Except.ok.injEq, List.not_mem_nil, false_implies, implies_true, true_and, List.filter_nil, List.isEmpty_nil,
      Bool.or_true, if_true, List.map_nil, List.flatMap_nil, List.append_nil]
    exact ⟨Eq.symm, Eq.symm⟩
  | i :: l, sent, r => by
    unfold outConns
    by_cases hs : strange T i = true
    · have hs' := hs
      simp only [strange, Bool.and_eq_true, decide_eq_true_eq, Option.isNone_iff_eq_none] at hs'
      rw [if_neg hs'.1, if_neg (by simp [hs'.2]), List.filter_cons, if_pos hs, app_ok]
      constructor
      · rintro ⟨x, y, h1, h2, h3⟩
        cases h1
        obtain ⟨x2, y2, h4, h5, h6⟩ := app_ok.1 h2
        obtain ⟨p, hx⟩ := (outConn_ok T fd i hs'.1 x2).1 h4
        obtain ⟨q, hy⟩ := (outConns_ok T fd l true y2).1 h5
        refine ⟨?_, ?_⟩
        · intro j hj hsj
          rcases List.mem_cons.1 hj with e | e
          · rw [e]; exact p
          · exact q j e hsj
        · rw [h3, h6, hx, hy]
          cases sent <;> simp
      · rintro ⟨h, e⟩
        refine ⟨_, _, rfl, app_ok.2 ⟨_, _, (outConn_ok T fd i hs'.1 _).2 ⟨h i List.mem_cons_self hs, rfl⟩,
          (outConns_ok T fd l true _).2 ⟨fun j hj => h j (List.mem_cons_of_mem _ hj), rfl⟩, rfl⟩, ?_⟩
        rw [e]
        cases sent <;> simp
    · have : (if (T.fds i).state = .invalid then outConns T fd sent l else if (T.fds i).lid ≠ none then outConns T fd sent l
          else app (.ok (if sent then [] else [tUnknown])) (app (outConn T fd i) (outConns T fd true l))) =
          outConns T fd sent l := by
        by_cases h1 : (T.fds i).state = .invalid
        · rw [if_pos h1]
        · rw [if_neg h1]
          by_cases h2 : (T.fds i).lid ≠ none
          · rw [if_pos h2]
          · exact absurd (by simp only [ne_eq, Decidable.not_not] at h2; simp [strange, h1, h2]) hs
      rw [this, outConns_ok T fd l sent r, List.filter_cons, if_neg hs]
      constructor
      · rintro ⟨h, e⟩
        refine ⟨?_, e⟩
        intro j hj hsj
        rcases List.mem_cons.1 hj with e | e
        · rw [e] at hsj; exact absurd hsj hs
        · exact h j e hsj
      · rintro ⟨h, e⟩
        exact ⟨fun j hj => h j (List.mem_cons_of_mem _ hj), e⟩

/-- C74: if the command ends, the reply has one entry for each known process and one for each
connection in use without LID, in order, with what is in the tables. -/
theorem C74_reply {T : Tab} {fd : Nat} {r : List Text} (h : gotStatus T fd = .ok r) :
    r = reply T.n (shown T) (((List.range 256).filter (strange T)).map (shownConn T fd)) := by
  obtain ⟨x, y, h1, h2, h3⟩ := app_ok.1 h
  obtain ⟨x2, y2, h4, h5, h6⟩ := app_ok.1 h2
  cases h1
  rw [h3, h6, ((outPeers_ok T _ x2).1 h4).2, ((outConns_ok T fd _ false y2).1 h5).2]
  simp [reply]

/-- C74: the command ends exactly if the processes up to the highest number are known with
location, host and state, and all texts fit. -/
theorem C74_ends_iff (T : Tab) (fd : Nat) :
    (∃ r, gotStatus T fd = .ok r) ↔ (∀ i, i < T.n → Printable T i) ∧ (∀ i, i < 256 → strange T i = true → ConnFits T fd i) := by
  constructor
  · rintro ⟨r, h⟩
    obtain ⟨x, y, h1, h2, h3⟩ := app_ok.1 h
    obtain ⟨x2, y2, h4, h5, h6⟩ := app_ok.1 h2
    exact ⟨fun i hi => ((outPeers_ok T _ x2).1 h4).1 i (List.mem_range.2 hi),
      fun i hi => ((outConns_ok T fd _ false y2).1 h5).1 i (List.mem_range.2 hi)⟩
  · rintro ⟨h1, h2⟩
    exact ⟨_, app_ok.2 ⟨_, _, rfl, app_ok.2 ⟨_, _, (outPeers_ok T _ _).2 ⟨fun i hi => h1 i (List.mem_range.1 hi), rfl⟩,
      (outConns_ok T fd _ false _).2 ⟨fun i hi => h2 i (List.mem_range.1 hi), rfl⟩, rfl⟩, rfl⟩⟩

theorem two_length (n : Nat) (h : n < 256) : (two n).length ≤ 4 := by
  have := digits_length_le n 3 (by omega) (by decide)
  unfold two
  rw [List.length_append]
  split <;> simp <;> omega

theorem clientText_length (c : Client) : (clientText c).length ≤ 35 + (two c.fd).length + c.state.length := by
  unfold clientText
  cases c.this
  · simp only [Bool.false_eq_true, if_false, List.length_append, tAt_length, tSt_length, List.length_singleton, List.length_nil]; omega
  · simp only [if_true, List.length_append, tAt_length, tThis_length, tSt_length, List.length_singleton]; omega

/-- C74 for complete tables: texts of processes as limited by registration (50 characters read,
"L0:" and 69 characters for the own location of the master), and queued commands up to 165
characters: the command ends.  Missing: longer queued commands and tables with gaps, for
which it is false. -/
theorem C74_no_fault_partial (T : Tab) (fd : Nat) (hn : T.n ≤ 256)
    (hp : ∀ i, i < T.n → ∃ l h, (T.peer i).location = some l ∧ (T.peer i).host = some h ∧ l.length ≤ 72 ∧ h.length ≤ 50 ∧
      (if T.mylid = some i then T.mystate else (T.peer i).state) ≠ .invalid ∧
      -(2 ^ 63) ≤ (T.peer i).port ∧ (T.peer i).port < 2 ^ 63 ∧ ∀ f, (T.peer i).fd = some f → f < 256)
    (hq : ∀ i c, (T.fds i).cmd = some c → strange T i = true → c.length ≤ 165) : ∃ r, gotStatus T fd = .ok r := by
  rw [C74_ends_iff]
  constructor
  · intro i hi
    obtain ⟨l, h, e1, e2, e3, e4, e5, e6, e7, e8⟩ := hp i hi
    refine ⟨by rw [e1]; simp, by rw [e2]; simp, e5, ?_, ?_⟩
    · have a := two_length i (by omega)
      have b := printInt_length_le _ e6 e7
      have t1 := tLid_length
      have t2 := tLoc_length
      have t3 := tHost_length
      have t4 := tPort_length
      have t5 := tFlags_length
      simp only [procText, shown, e1, e2, Option.getD_some, List.length_append, t1, t2, t3, t4, t5, List.length_singleton]
      omega
    · intro f hf
      have a := digits_length_le f 3 (by have := e8 f hf; omega) (by decide)
      have t1 := tOpen_length
      simp only [connText, List.length_append, t1]
      omega
  · intro i hi hs
    refine ⟨?_, ?_⟩
    · have a := two_length i hi
      have b : ((stateString (T.fds i).state).getD []).length ≤ 80 := by
        rcases stateString_some (T.fds i).state with ⟨_, h2⟩ | ⟨t, h1, h2, _⟩
        · rw [h2]; simp
        · rw [h1]; exact h2
      have c := clientText_length (shownConn T fd i)
      simp only [shownConn] at c ⊢
      omega
    · intro c hc
      have := hq i c hc hs
      have t1 := tQueued_length
      simp only [queuedText, List.length_append, t1, List.length_singleton]
      omega

/-- All states. -/
def allStates : List PS :=
  [.invalid, .unknown, .cutoffReceived, .beforeReg, .regReceived, .regReceived2, .regAccepted, .regFinishing, .regFinished,
   .inStartup, .inStartup2, .noConnect, .ready, .readyRemove, .dead, .error, .inResize, .inResize1, .inResize2, .inResize3,
   .inResizeRemove, .inResizeRemove2, .inResizeRemove3]

/-- C74: states are shown with different texts, besides the two of a queued registration. -/
theorem C74_states (a b : PS) (h : stateString a = stateString b) :
    a = b ∨ (a = .regReceived ∨ a = .regReceived2) ∧ (b = .regReceived ∨ b = .regReceived2) := by
  have key : ∀ x ∈ allStates, ∀ y ∈ allStates, stateString x = stateString y →
      x = y ∨ (x = .regReceived ∨ x = .regReceived2) ∧ (y = .regReceived ∨ y = .regReceived2) := by decide +kernel
  exact key a (by cases a <;> decide) b (by cases b <;> decide) h

/-! ### What is wrong -/

/-- A master, alone and ready, with one client on descriptor 5. -/
def master (cmd : Option Text) : Tab where
  mystate := .ready
  mylid := some 0
  n := 1
  peer := fun _ => ⟨.ready, none, 7777, some ['a'], some ['L', '0', ':', 'a'], true⟩
  fds := fun i => if i = 5 then ⟨if cmd = none then .unknown else .regReceived, none, cmd⟩ else ⟨.invalid, none, none⟩

/-- C74 fails for every client which has a command of more than 165 characters queued: the
text is written behind the array. -/
theorem C74_long_command (T : Tab) (fd i : Nat) (c : Text) (hi : i < 256) (hs : strange T i = true) (hc : (T.fds i).cmd = some c)
    (hl : 165 < c.length) : ¬ ∃ r, gotStatus T fd = .ok r := by
  rw [C74_ends_iff]
  rintro ⟨_, h⟩
  have := (h i hi hs).queued c hc
  have t1 := tQueued_length
  simp only [queuedText, List.length_append, t1, List.length_singleton] at this
  omega

/-- The result is a fault. -/
def faultOf : Except Fault (List Text) → Option Fault
  | .ok _ => none
  | .error e => some e

theorem C74_long_command_witness : faultOf (gotStatus (master (some (List.replicate 166 'r'))) 5) = some .overflow := by
  decide +kernel

/-- Process 2 in startup after the answer to its registration: processes 0 and 1 are not
known yet. -/
def newcomer : Tab where
  mystate := .regAccepted
  mylid := some 2
  n := 3
  peer := fun i => if i = 2 then ⟨.regAccepted, none, 4000, some ['b'], some ['L', '2', ':', 'b'], true⟩ else ⟨.invalid, none, -1, none, none, false⟩
  fds := fun i => if i = 5 then ⟨.unknown, none, none⟩ else ⟨.invalid, none, none⟩

/-- C74 fails for a process which does not know all others yet: texts which are not there are
printed. -/
theorem C74_in_startup : faultOf (gotStatus newcomer 5) = some .null := by decide +kernel

/-! ### Cases meeting the hypotheses -/

example : (gotStatus (master none) 5).toOption = some
    ["# Known peers:".toList, "#  LID 0 loc 'L0:a' at host 'a' port 7777 flags b".toList, "#        state: 'ready'".toList,
     "# Unknown peers:".toList, "#  at FD 5 (this connection) state 'unknown'".toList] := by decide +kernel

example : (gotStatus (master (some "register x".toList)) 12).toOption = some
    ["# Known peers:".toList, "#  LID 0 loc 'L0:a' at host 'a' port 7777 flags b".toList, "#        state: 'ready'".toList,
     "# Unknown peers:".toList, "#  at FD 5 state 'registration started, waiting'".toList,
     "#        queued for processing: 'register x'".toList] := by decide +kernel

end Laik.Sg
