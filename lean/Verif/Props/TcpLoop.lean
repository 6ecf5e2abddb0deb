import Verif.Model.TcpLoopSteps
import Verif.Model.TcpLoopCalm

/-!
# C73: the event loop of the TCP2 backend
-/

namespace Laik.Lp

variable {used : Nat → Bool} {L mylid maxid : Nat}

/-- C73: for any input of any clients, in any order, with descriptors used again after close:
the loop never calls a callback which is not set, no descriptor is registered twice, and the
search for the highest descriptor ends. -/
theorem C73_no_loop_fault (hL : L < maxFds) (hu : used L = true) (evs : List Ev) :
    ∀ e, start used mylid maxid L evs = .error e → e ≠ .nullCb ∧ e ≠ .addTwice ∧ e ≠ .empty := by
  intro e he
  have := run_ok (ready_inv mylid maxid hL hu) evs
  rw [← start_eq mylid maxid hL evs, he] at this
  have h : Ext e := this
  refine ⟨?_, ?_, ?_⟩ <;> (intro e'; rw [e'] at h; exact h)

/-- C73: at any time the descriptors given to `select` are those with a callback; these are
open, below the limit, have a receive buffer, and `maxfds` is the highest one.  The listening
socket stays.  Every descriptor opened is registered until it is closed. -/
theorem C73_table (hL : L < maxFds) (hu : used L = true) {evs : List Ev} {s : St} (h : start used mylid maxid L evs = .ok s) :
    (∀ i, s.rset i = true ↔ (s.fds i).cb ≠ none) ∧
    (∀ i, (s.fds i).cb ≠ none → i ≤ s.maxfds ∧ i < maxFds ∧ s.isOpen i = true) ∧
    s.rset s.maxfds = true ∧
    (∀ i, (s.fds i).buf = true ↔ (s.fds i).cb ≠ none) ∧
    (∀ i, (s.fds i).cb = some .connect ↔ i = L) ∧
    (∀ i, s.isOpen i = true ↔ used i = true ∨ s.rset i = true) ∧
    (∀ i, used i = true → i ≠ L → s.rset i = false) := by
  have := run_ok (ready_inv mylid maxid hL hu) evs
  rw [← start_eq mylid maxid hL evs, h] at this
  obtain ⟨i, _⟩ := this
  have hr : ∀ j, s.rset j = true ↔ (s.fds j).cb ≠ none := by
    intro j
    rw [i.rset j]
    cases (s.fds j).cb <;> simp
  refine ⟨hr, fun j hj => ⟨(i.reg j hj).1, (i.reg j hj).2.1, (i.reg j hj).2.2.1⟩, (hr _).2 i.top, ?_, i.listen, ?_, ?_⟩
  · intro j
    refine ⟨fun hb e => ?_, fun hj => (i.reg j hj).2.2.2⟩
    rw [(i.noreg j e).1] at hb
    cases hb
  · intro j; rw [i.opens j, hr j]
  · intro j hj hne
    cases hx : s.rset j with
    | false => rfl
    | true =>
      have hc := (hr j).1 hx
      cases hcb : (s.fds j).cb with
      | none => exact absurd hcb hc
      | some c =>
        cases c with
        | connect => exact absurd ((i.listen j).1 hcb) hne
        | bytes => rw [i.fresh j hcb] at hj; cases hj

/-- C73: what is sent to a process goes to an open connection on which this process was
announced. -/
theorem C73_sends (hL : L < maxFds) (hu : used L = true) {evs : List Ev} {s : St} (h : start used mylid maxid L evs = .ok s)
    {k f : Nat} (hk : s.peerFd k = some f) : s.isOpen f = true ∧ s.rset f = true ∧ (s.fds f).cb = some .bytes ∧ (s.fds f).lid = some k := by
  have := run_ok (ready_inv mylid maxid hL hu) evs
  rw [← start_eq mylid maxid hL evs, h] at this
  obtain ⟨i, _⟩ := this
  obtain ⟨h1, h2⟩ := i.peer k f hk
  exact ⟨(i.reg f (by rw [h1]; simp)).2.2.1, by rw [i.rset f, h1]; rfl, h1, h2⟩

/-- C73: the callback of every ready descriptor is called, once and in order, though the
callbacks change the table and `maxfds`. -/
theorem C73_dispatch (hL : L < maxFds) (hu : used L = true) {evs : List Ev} {s : St} (h : start used mylid maxid L evs = .ok s) :
    s.calls = readyAll evs := by
  have := run_ok (ready_inv mylid maxid hL hu) evs
  rw [← start_eq mylid maxid hL evs, h] at this
  rw [this.2.1]
  rfl

/-- C73: every command in the input is handled, once and in order, with its own descriptor;
the last line at the end of the input also without line feed. -/
theorem C73_commands (hL : L < maxFds) (hu : used L = true) {evs : List Ev} {s : St} (h : start used mylid maxid L evs = .ok s) :
    s.log = saidAll (fun _ => none) evs := by
  have := run_ok (ready_inv mylid maxid hL hu) evs
  rw [← start_eq mylid maxid hL evs, h] at this
  rw [this.2.2]
  have hp : parts (ready used mylid maxid L) = fun _ => none := by
    funext j
    by_cases e : j = L
    · subst e; simp [parts, ready, upd]
    · simp [parts, ready, upd, e]
  rw [hp]
  rfl

/-- C73 without the commands "myid", "register", "cutoff", with "quit" only as complete line at
the end, and with fewer than `MAX_FDS` descriptors: nothing goes wrong.  Missing: the
other commands; see below for what they can cause. -/
theorem C73_no_fault_partial (hL : L < maxFds) (hu : used L = true) (evs : List Ev) (hc : ∀ e ∈ evs, calmEv e = true)
    (hg : ∀ e ∈ evs, ∀ f ∈ givenEv e, f < maxFds) :
    ∀ e, start used mylid maxid L evs = .error e → e = .impossible := by
  intro e he
  have := run_calm (ready_inv mylid maxid hL hu) (ready_calm mylid maxid) evs fun e he => calmStep_of e (hc e he) (hg e he)
  rw [← start_eq mylid maxid hL evs, he] at this
  exact this

/-- C73: clients which did not register cause nothing with other commands. -/
theorem C73_unknown (s : St) (i m : Nat) (l : List (Nat × Nat)) (h : (s.fds i).lid = none) :
    gotCmd s i (.other m l) = .ok { s with log := s.log ++ [(i, .other m l)] } := by
  simp only [gotCmd, h]

/-- C73: a known process which announces itself on a connection not yet announced is reached
on this connection; nothing changes for other connections and processes. -/
theorem C73_myid (hL : L < maxFds) (hu : used L = true) {evs : List Ev} {s s' : St} (h : start used mylid maxid L evs = .ok s)
    {i k : Nat} (hi : (s.fds i).lid = none) (hk : k ≤ s.maxid) (hk2 : k < maxPeers) (hm : k ≠ s.mylid)
    (hs : step s (.round [(i, .lines [.myid k] none)]) = .ok s') :
    s'.peerFd k = some i ∧ (s'.fds i).lid = some k ∧ (∀ j, j ≠ k → s'.peerFd j = s.peerFd j) ∧
    (∀ j, j ≠ i → s'.fds j = s.fds j) ∧ s'.maxid = s.maxid := by
  have inv := run_ok (ready_inv mylid maxid hL hu) evs
  rw [← start_eq mylid maxid hL evs, h] at inv
  obtain ⟨_, cb, hs⟩ := oneLine inv.1 hs
  have e1 : ¬ (maxPeers ≤ k ∨ s.maxid < k) := by omega
  simp only [gotCmd, gotMyid, hi, Ne.symm hm, e1, if_false, if_true, next, upd, cb] at hs
  cases hs
  refine ⟨by simp [upd], by simp [upd], fun j hj => by simp [upd, hj], fun j hj => by simp [upd, hj], rfl⟩

/-- C73: a client which takes the number of the process itself, or another number on a
connection already announced, changes nothing. -/
theorem C73_myid_refused (hL : L < maxFds) (hu : used L = true) {evs : List Ev} {s s' : St} (h : start used mylid maxid L evs = .ok s)
    {i k : Nat} (hi : (s.fds i).lid ≠ none ∨ k = s.mylid) (hs : step s (.round [(i, .lines [.myid k] none)]) = .ok s') :
    s'.peerFd = s.peerFd ∧ (∀ j, (s'.fds j).lid = (s.fds j).lid) ∧ s'.maxid = s.maxid := by
  have inv := run_ok (ready_inv mylid maxid hL hu) evs
  rw [← start_eq mylid maxid hL evs, h] at inv
  obtain ⟨_, cb, hs⟩ := oneLine inv.1 hs
  have fin : ∀ (d : Fd) (j : Nat), d.lid = (s.fds i).lid → (upd s.fds i d j).lid = (s.fds j).lid := by
    intro d j hd
    by_cases e : j = i
    · subst e; simp [upd, hd]
    · simp [upd, e]
  cases hl : (s.fds i).lid with
  | some m =>
    simp only [gotCmd, gotMyid, hl, next, cb, if_true] at hs
    cases hs
    exact ⟨rfl, fun j => fin _ j (by simp [hl]), rfl⟩
  | none =>
    have hk : s.mylid = k := by
      rcases hi with hi | hi
      · exact absurd hl hi
      · exact hi.symm
    simp only [gotCmd, gotMyid, hl, hk, next, cb, if_true] at hs
    cases hs
    exact ⟨rfl, fun j => fin _ j (by simp [hl]), rfl⟩

/-- C73: a registration in startup at the master gets the number after all numbers given
before, and the process is reached on its connection. -/
theorem C73_register (hL : L < maxFds) (hu : used L = true) {evs : List Ev} {s s' : St} (h : start used mylid maxid L evs = .ok s)
    {i : Nat} (hi : (s.fds i).lid = none) (h0 : s.mylid = 0) (hst : s.starting = true)
    (hs : step s (.round [(i, .lines [.register] none)]) = .ok s') :
    s'.maxid = s.maxid + 1 ∧ (s'.fds i).lid = some (s.maxid + 1) ∧ s'.peerFd (s.maxid + 1) = some i ∧
    (∀ j, j ≠ s.maxid + 1 → s'.peerFd j = s.peerFd j) ∧ (∀ j, j ≠ i → s'.fds j = s.fds j) := by
  have inv := run_ok (ready_inv mylid maxid hL hu) evs
  rw [← start_eq mylid maxid hL evs, h] at inv
  obtain ⟨_, cb, hs⟩ := oneLine inv.1 hs
  by_cases e1 : maxPeers ≤ s.maxid + 1
  · simp [gotCmd, gotRegister, hi, h0, hst, e1, next] at hs
  · simp only [gotCmd, gotRegister, hi, h0, hst, e1, if_false, if_true, next, upd, cb, ne_eq, not_true_eq_false] at hs
    cases hs
    refine ⟨rfl, by simp [upd], by simp [upd], fun j hj => by simp [upd, hj], fun j hj => by simp [upd, hj]⟩

/-- C73: numbers given are never given again: the highest number never gets smaller. -/
theorem C73_numbers {s s' : St} {ev : Ev} (hs : step s ev = .ok s') : s.maxid ≤ s'.maxid := step_maxid hs

/-- C73: a registration after startup at the master is kept for later, if none is kept. -/
theorem C73_register_kept (hL : L < maxFds) (hu : used L = true) {evs : List Ev} {s : St} (h : start used mylid maxid L evs = .ok s)
    {i : Nat} (hi : (s.fds i).lid = none) (hcb : (s.fds i).cb = some .bytes) (h0 : s.mylid = 0) (hst : s.starting = false) (hc : (s.fds i).cmd = false) :
    ∃ s', step s (.round [(i, .lines [.register] none)]) = .ok s' ∧ (s'.fds i).cmd = true ∧ s'.peerFd = s.peerFd ∧ s'.maxid = s.maxid := by
  have inv := run_ok (ready_inv mylid maxid hL hu) evs
  rw [← start_eq mylid maxid hL evs, h] at inv
  have inv := inv.1
  have hr : s.rset i = true := by rw [inv.rset i, hcb]; rfl
  have hb : (s.fds i).buf = true := (inv.reg i (by rw [hcb]; simp)).2.2.2
  have hle : ¬ s.maxfds < i := by have := (inv.reg i (by rw [hcb]; simp)).1; omega
  simp [step, selected, hr, loop, hle, callback_lines hcb, processRbuf, hb, gotCmd, gotRegister, hi, h0, hst, queueCmd, hc, next, upd]

/-- C73: a new connection is not announced and has nothing left of former connections with
the same descriptor. -/
theorem C73_fresh (hL : L < maxFds) (hu : used L = true) {evs : List Ev} {s s' : St} (h : start used mylid maxid L evs = .ok s)
    {f : Nat} (hs : step s (.round [(L, .conn f)]) = .ok s') :
    (s'.fds f).lid = none ∧ (s'.fds f).cmd = false ∧ (s'.fds f).part = none ∧ (s'.fds f).cb = some .bytes ∧
    s'.peerFd = s.peerFd ∧ (∀ j, j ≠ f → s'.fds j = s.fds j) := by
  have inv := run_ok (ready_inv mylid maxid hL hu) evs
  rw [← start_eq mylid maxid hL evs, h] at inv
  have inv := inv.1
  have hcb := (inv.listen L).2 rfl
  have hle : ¬ s.maxfds < L := by have := (inv.reg L (by rw [hcb]; simp)).1; omega
  have hr : s.rset L = true := by rw [inv.rset L, hcb]; rfl
  simp only [step, selected, List.all_cons, hr, List.all_nil, Bool.and_true, Bool.true_and, List.pairwise_singleton, decide_true, if_true, loop, hle, if_false,
    callback_conn hcb, gotConnect, addRfd] at hs
  by_cases e1 : s.isOpen f = true
  · simp [e1, next] at hs
  · by_cases e2 : maxFds ≤ f
    · simp [e1, e2, next] at hs
    · by_cases e3 : (s.fds f).cb = none
      · simp [e1, e2, e3, next] at hs
        cases hs
        refine ⟨by simp [upd], by simp [upd], by simp [upd], by simp [upd], rfl, fun j hj => by simp [upd, hj]⟩
      · simp [e1, e2, e3, next] at hs

/-! ### What clients can cause -/

/-- The fault of a run. -/
def faultOf : Except Fault St → Option Fault
  | .ok _ => none
  | .error e => some e

/-- Descriptors 0 to 3 are in use, 3 is the listening socket. -/
def low : Nat → Bool := fun i => decide (i < 4)

/-- C73 fails for a client which sends "quit" without line feed and closes: the connection is
removed twice, an assertion fails. -/
theorem C73_quit_at_end :
    faultOf (start low 0 0 3 [.round [(3, .conn 4)], .round [(4, .lines [] (some .quit))], .round [(4, .eof)]]) = some .rmTwice := by
  decide +kernel

/-- C73 fails also if this client announced itself before: another assertion fails. -/
theorem C73_quit_at_end_known :
    faultOf (start low 0 3 3 [.round [(3, .conn 4)], .round [(4, .lines [.myid 2] (some .quit))], .round [(4, .eof)]]) = some .wrongPeer := by
  decide +kernel

/-- C73 fails for a client which sends anything after "quit": the freed buffer is used. -/
theorem C73_quit_more :
    faultOf (start low 0 0 3 [.round [(3, .conn 4)], .round [(4, .lines [.quit, .other 1 []] none)]]) = some .freed := by
  decide +kernel

/-- C73 fails for a client which registers twice after startup: an assertion fails. -/
theorem C73_register_twice :
    faultOf (start low 0 3 3 [.mode false true, .round [(3, .conn 4)], .round [(4, .lines [.register, .register] none)]]) =
      some .queued := by
  decide +kernel

/-- C73 fails for a client which says to be a process not known: an assertion fails. -/
theorem C73_unknown_id :
    faultOf (start low 0 3 3 [.round [(3, .conn 4)], .round [(4, .lines [.myid 9] none)]]) = some .badId := by
  decide +kernel

/-- C73 fails for two connections of the same process, of which the first ends: an assertion
fails. -/
theorem C73_two_connections :
    faultOf (start low 0 3 3 [.round [(3, .conn 4)], .round [(3, .conn 5)], .round [(4, .lines [.myid 1] none), (5, .lines [.myid 1] none)],
      .round [(4, .eof)]]) = some .wrongPeer := by
  decide +kernel

/-- C73: the limit on descriptors is an assertion. -/
theorem C73_too_many : faultOf (start low 0 0 3 [.round [(3, .conn 256)]]) = some .tooMany := by
  decide +kernel

/-! ### Cases meeting the hypotheses -/

/-- Two clients; the first one quits while both are ready, its descriptor is used again by a
new client and by a connection to another process. -/
def session : List Ev :=
  [.round [(3, .conn 4)], .round [(3, .conn 5), (4, .lines [.register] (some (.other 1 [])))],
   .round [(4, .lines [.other 1 [(2, 9)]] none), (5, .lines [.other 7 [], .quit] none)],
   .round [(3, .conn 5), (4, .lines [] (some (.other 8 []))), (9, .eof)],
   .round [(4, .eof), (5, .lines [.other 9 []] none)], .send 1 4]

example : faultOf (start low 0 3 3 session) = none := by decide +kernel

example : (match start low 0 3 3 session with | .ok s => s.calls | .error _ => []) = [3, 3, 4, 4, 5, 3, 4, 9, 4, 5] := by decide +kernel

example : (match start low 0 3 3 session with | .ok s => s.maxfds | .error _ => 0) = 5 := by decide +kernel

example : saidAll (fun _ => none) session =
    [(4, .register), (4, .other 1 [(2, 9)]), (5, .other 7 []), (5, .quit), (4, .other 8 []), (5, .other 9 [])] := by decide +kernel

example : (match start low 0 3 3 session with | .ok s => s.peerFd 1 | .error _ => none) = some 4 := by decide +kernel

/-- Only other commands and "quit". -/
def calmSession : List Ev :=
  [.round [(3, .conn 4)], .round [(3, .conn 5), (4, .lines [.other 1 []] (some (.other 1 [])))],
   .round [(4, .lines [.other 1 [(2, 9)]] none), (5, .lines [.other 7 [], .quit] none)], .send 2 6, .round [(4, .eof), (6, .eof)]]

example : (∀ e ∈ calmSession, calmEv e = true) ∧ (∀ e ∈ calmSession, ∀ f ∈ givenEv e, f < maxFds) ∧
    faultOf (start low 0 0 3 calmSession) = none := by decide +kernel

example : low 3 = true ∧ (3 : Nat) < maxFds := by decide

/-- Something of the state after a run. -/
def after {A : Type} (x : Except Fault St) (f : St → A) : Option A :=
  match x with
  | .ok s => some (f s)
  | .error _ => none

-- C73_register, C73_myid: a registration gets 4; then process 2 announces itself
example : after (start low 0 3 3 [.round [(3, .conn 4)], .round [(4, .lines [.register] none)], .round [(3, .conn 5)], .round [(5, .lines [.myid 2] none)]])
    (fun s => (s.maxid, (s.fds 4).lid, s.peerFd 4, (s.fds 5).lid, s.peerFd 2)) = some (4, some 4, some 4, some 2, some 5) := by decide +kernel

-- C73_myid_refused: own number, or another one
example : after (start low 0 3 3 [.round [(3, .conn 4)], .round [(4, .lines [.myid 0, .myid 2, .myid 1] none)]])
    (fun s => ((s.fds 4).lid, s.peerFd 0, s.peerFd 1, s.peerFd 2)) = some (some 2, none, none, some 4) := by decide +kernel

-- C73_register_kept, C73_fresh: a registration is kept; a new client with the same descriptor has nothing of it
example : after (start low 0 3 3 [.mode false true, .round [(3, .conn 4)], .round [(4, .lines [.register] none)]])
    (fun s => ((s.fds 4).cmd, s.maxid)) = some (true, 3) := by decide +kernel

example : after (start low 0 3 3 [.mode false true, .round [(3, .conn 4)], .round [(4, .lines [.register] none)], .round [(4, .eof)], .round [(3, .conn 4)]])
    (fun s => ((s.fds 4).cmd, (s.fds 4).lid)) = some (false, none) := by decide +kernel

end Laik.Lp
