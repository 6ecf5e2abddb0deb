import Verif.Model.TcpLoopLemmas

/-! # Single steps of the event loop: lemmas for `Model/TcpLoop` -/

namespace Laik.Lp

variable {used : Nat → Bool} {L : Nat}

theorem callback_conn {s : St} {i : Nat} (h : (s.fds i).cb = some .connect) (f : Nat) :
    callback s i (.conn f) = gotConnect { s with calls := s.calls ++ [i] } f := by
  unfold callback; simp only [h]

theorem callback_connLines {s : St} {i : Nat} (h : (s.fds i).cb = some .connect) (ls : List Cmd) (r : Option Cmd) :
    callback s i (.lines ls r) = .error .impossible := by
  unfold callback; simp only [h]

theorem callback_lines {s : St} {i : Nat} (h : (s.fds i).cb = some .bytes) (ls : List Cmd) (r : Option Cmd) :
    callback s i (.lines ls r) = processRbuf { s with calls := s.calls ++ [i] } i ls r := by
  unfold callback; simp only [h]

/-- A round with one complete line on one connection. -/
theorem oneLine {s s' : St} (h : Inv used L s) {i : Nat} {c : Cmd} (hs : step s (.round [(i, .lines [c] none)]) = .ok s') :
    (s.fds i).cb = some .bytes ∧ (s.fds i).buf = true ∧
    next (gotCmd { s with calls := s.calls ++ [i] } i c) (fun s1 =>
      if (s1.fds i).buf = true then .ok { s1 with fds := upd s1.fds i { s1.fds i with part := none } } else .ok s1) = .ok s' := by
  cases hr : s.rset i with
  | false => simp [step, selected, hr] at hs
  | true =>
    have hcb : (s.fds i).cb.isSome = true := by rw [← h.rset i, hr]
    have hne : (s.fds i).cb ≠ none := by intro e; rw [e] at hcb; cases hcb
    obtain ⟨h1, _, _, hb⟩ := h.reg i hne
    have hle : ¬ s.maxfds < i := by omega
    cases hc : (s.fds i).cb with
    | none => exact absurd hc hne
    | some cb =>
      cases cb with
      | connect => simp [step, selected, hr, loop, hle, callback_connLines hc, next] at hs
      | bytes =>
        refine ⟨rfl, hb, ?_⟩
        simp only [step, selected, List.all_cons, hr, List.all_nil, Bool.and_true, Bool.true_and, List.pairwise_singleton, decide_true, if_true,
          loop, hle, if_false, callback_lines hc, processRbuf, hb] at hs
        revert hs
        cases gotCmd { s with calls := s.calls ++ [i] } i c with
        | error e => intro hs; simp [next] at hs
        | ok s1 =>
          simp only [next]
          cases (s1.fds i).buf <;> exact id

/-- What never lowers the highest number. -/
abbrev Up (m : Nat) : Except Fault St → Prop := Out (fun t => m ≤ t.maxid) fun _ => True

theorem up_add (m : Nat) (s : St) (f : Nat) (c : Cb) (h : m ≤ s.maxid) : Up m (addRfd s f c) := by
  unfold addRfd
  split
  · trivial
  · split
    · trivial
    · exact h

theorem up_rm (m : Nat) (s : St) (f : Nat) (h : m ≤ s.maxid) : Up m (rmRfd s f) := by
  unfold rmRfd
  split
  · trivial
  · split
    · trivial
    · dsimp only
      split
      · trivial
      · exact h

theorem up_ensure (m : Nat) (s : St) (k f : Nat) (h : m ≤ s.maxid) : Up m (ensureConn s k f) := by
  unfold ensureConn
  split
  · exact h
  · split
    · trivial
    · exact Out.next (up_add m _ f .bytes h) fun t ht => ht

theorem up_sendAll (m : Nat) : ∀ (l : List (Nat × Nat)) (s : St), m ≤ s.maxid → Up m (sendAll s l)
  | [], _, h => h
  | (k, f) :: r, s, h => Out.next (up_ensure m s k f h) fun t ht => up_sendAll m r t ht

theorem up_queue (m : Nat) (s : St) (f : Nat) (h : m ≤ s.maxid) : Up m (queueCmd s f) := by
  unfold queueCmd
  split
  · trivial
  · exact h

theorem up_cmd (m : Nat) (s : St) (f : Nat) (c : Cmd) (h : m ≤ s.maxid) : Up m (gotCmd s f c) := by
  unfold gotCmd
  cases c with
  | quit =>
    refine Out.next (up_rm m _ f h) fun t ht => ?_
    dsimp only
    split <;> exact ht
  | myid k =>
    dsimp only [gotMyid]
    split
    · exact h
    · split
      · exact h
      · split
        · trivial
        · exact h
  | register =>
    dsimp only [gotRegister]
    split
    · exact h
    · split
      · exact h
      · split
        · split
          · trivial
          · exact Nat.le_succ_of_le h
        · exact up_queue m _ f h
  | cutoff =>
    dsimp only [gotCutoff]
    split
    · exact h
    · exact up_queue m _ f h
  | other n l =>
    dsimp only
    split
    · exact h
    · exact up_sendAll m l _ h

theorem up_rbuf (m : Nat) (f : Nat) (r : Option Cmd) : ∀ (l : List Cmd) (s : St), m ≤ s.maxid → Up m (processRbuf s f l r)
  | [], s, h => by
    unfold processRbuf
    split
    · exact h
    · split
      · exact h
      · trivial
  | c :: l, s, h => by
    unfold processRbuf
    split
    · exact Out.next (up_cmd m s f c h) fun t ht => up_rbuf m f r l t ht
    · trivial

theorem up_end (m : Nat) (s : St) (f : Nat) (h : m ≤ s.maxid) : Up m (gotEnd s f) := by
  unfold gotEnd
  refine Out.next (P := fun t => m ≤ t.maxid) ?_ fun t ht => ?_
  · split
    · exact h
    · exact up_rbuf m f none _ s h
  · split
    · exact up_rm m _ f ht
    · split
      · exact up_rm m _ f ht
      · trivial

theorem up_callback (m : Nat) (s : St) (i : Nat) (x : In) (h : m ≤ s.maxid) : Up m (callback s i x) := by
  unfold callback
  dsimp only
  split
  · trivial
  · unfold gotConnect
    split
    · trivial
    · exact up_add m _ _ .bytes h
  · trivial
  · trivial
  · exact up_rbuf m i _ _ _ h
  · exact up_end m _ i h
  · exact h

theorem up_loop (m : Nat) : ∀ (l : List (Nat × In)) (s : St), m ≤ s.maxid → Up m (loop s l)
  | [], _, h => h
  | (i, x) :: r, s, h => by
    unfold loop
    split
    · exact h
    · exact Out.next (up_callback m s i x h) fun t ht => up_loop m r t ht

/-- The highest number never gets smaller. -/
theorem step_maxid {s s' : St} {e : Ev} (hs : step s e = .ok s') : s.maxid ≤ s'.maxid := by
  have : Up s.maxid (step s e) := by
    cases e with
    | round l =>
      show Up _ (if selected s l then loop s l else .error .impossible)
      split
      · exact up_loop _ l s (Nat.le_refl _)
      · trivial
    | send k f => exact up_ensure _ s k f (Nat.le_refl _)
    | mode a b => exact Nat.le_refl _
  rw [hs] at this
  exact this

end Laik.Lp
