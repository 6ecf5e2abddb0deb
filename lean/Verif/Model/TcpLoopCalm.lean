import Verif.Model.TcpLoopLemmas

/-!
# Event loop of the TCP2 backend with clients which only use other commands and "quit"
-/

namespace Laik.Lp

variable {used : Nat → Bool} {L : Nat}

theorem Out.and {P Q : St → Prop} {A B : Fault → Prop} {x : Except Fault St} (h : Out P A x) (g : Out Q B x) :
    Out (fun t => P t ∧ Q t) (fun e => A e ∧ B e) x := by
  cases x with
  | ok s => exact ⟨h, g⟩
  | error e => exact ⟨h, g⟩

/-- Faults left: none, only what is no execution. -/
def Imp : Fault → Prop := fun e => e = .impossible

/-- A connection of a LID is the one of the table; incomplete lines are other commands. -/
structure Calm (s : St) : Prop where
  back : ∀ f k, (s.fds f).cb = some .bytes → (s.fds f).lid = some k → s.peerFd k = some f
  part : ∀ i c, (s.fds i).part = some c → ∃ m l, c = .other m l ∧ ∀ p ∈ l, p.2 < maxFds

theorem Calm.log {s : St} (h : Calm s) (l : List (Nat × Cmd)) : Calm { s with log := l } := ⟨h.back, h.part⟩

theorem Calm.calls {s : St} (h : Calm s) (l : List Nat) : Calm { s with calls := l } := ⟨h.back, h.part⟩

theorem ensure_calm {s : St} (h : Inv used L s) (hc : Calm s) (k f : Nat) (hf : f < maxFds) :
    Out (fun t => Inv used L t ∧ Calm t ∧ ∀ j, (s.fds j).cb ≠ none → (t.fds j).cb = (s.fds j).cb) Imp (ensureConn s k f) := by
  have h1 := ensure_ok h k f f
  have h2 := ensure_ok h k f (f + 1)
  cases hx : ensureConn s k f with
  | error e =>
    rw [hx] at h1
    rcases h1 with e1 | ⟨_, e2⟩
    · exact e1
    · omega
  | ok t =>
    rw [hx] at h1 h2
    obtain ⟨t1, t2, _, t4⟩ := h1
    have hcb : ∀ j, (s.fds j).cb ≠ none → (t.fds j).cb = (s.fds j).cb := by
      intro j hj
      by_cases e : j = f
      · exact h2.2.1.cb j (by omega) hj
      · exact t2.cb j e hj
    refine ⟨t1, ⟨?_, ?_⟩, hcb⟩
    · rcases t4 with e | ⟨e1, e2, e3, e4, e5⟩
      · rw [e]; exact hc.back
      · intro g k' hg hl
        by_cases e : g = f
        · subst e
          rw [e4] at hl
          injection hl with hl
          rw [e3, hl, upd_same]
        · rw [e5 g e] at hg hl
          have := hc.back g k' hg hl
          rw [e3, upd_other _ _ (by intro e'; rw [e', e2] at this; cases this)]
          exact this
    · intro j c hj
      have : (t.fds j).part = (s.fds j).part := by
        by_cases e : j = f
        · exact h2.2.1.part j (by omega)
        · exact t2.part j e
      rw [this] at hj
      exact hc.part j c hj

theorem sendAll_calm {s : St} (h : Inv used L s) (hc : Calm s) (l : List (Nat × Nat)) (hl : ∀ p ∈ l, p.2 < maxFds) :
    Out (fun t => Inv used L t ∧ Calm t ∧ ∀ j, (s.fds j).cb ≠ none → (t.fds j).cb = (s.fds j).cb) Imp (sendAll s l) := by
  induction l generalizing s with
  | nil => exact ⟨h, hc, fun _ _ => rfl⟩
  | cons p l ih =>
    obtain ⟨k, f⟩ := p
    refine Out.next (ensure_calm h hc k f (hl (k, f) List.mem_cons_self)) ?_
    intro t ⟨t1, t2, t3⟩
    refine (ih t1 t2 fun q hq => hl q (List.mem_cons_of_mem _ hq)).mono ?_
    intro u ⟨u1, u2, u3⟩
    exact ⟨u1, u2, fun j hj => by rw [u3 j (by rw [t3 j hj]; exact hj), t3 j hj]⟩

theorem other_calm {s : St} (h : Inv used L s) (hc : Calm s) (i m : Nat) (hi : (s.fds i).cb = some .bytes) (l : List (Nat × Nat))
    (hl : ∀ p ∈ l, p.2 < maxFds) :
    Out (fun t => Inv used L t ∧ Calm t ∧ (t.fds i).cb = some .bytes) Imp (gotCmd s i (.other m l)) := by
  simp only [gotCmd]
  cases hlid : (s.fds i).lid with
  | none => exact ⟨h.log _, hc.log _, hi⟩
  | some k =>
    refine (sendAll_calm (h.log _) (hc.log _) l hl).mono ?_
    intro t ⟨t1, t2, t3⟩
    exact ⟨t1, t2, by rw [t3 i (by show (s.fds i).cb ≠ none; rw [hi]; simp)]; exact hi⟩

theorem calm_close {s t : St} (hc : Calm s) {i : Nat} (ht : Inv used L t) (h1 : ∀ j, j ≠ i → t.fds j = s.fds j)
    (h2 : (t.fds i).cb = none) (hi : (s.fds i).cb = some .bytes)
    (h3 : t.peerFd = match (s.fds i).lid with | none => s.peerFd | some k => upd s.peerFd k none) : Calm t := by
  refine ⟨?_, ?_⟩
  · intro g k hg hl
    have e : g ≠ i := fun e => by rw [e, h2] at hg; cases hg
    rw [h1 g e] at hg hl
    have hb := hc.back g k hg hl
    rw [h3]
    cases hk : (s.fds i).lid with
    | none => exact hb
    | some k0 =>
      have hb0 := hc.back i k0 hi hk
      simp only
      rw [upd_other _ _ (by intro e'; rw [e', hb0] at hb; injection hb with hb; exact e hb.symm)]
      exact hb
  · intro j c hj
    by_cases e : j = i
    · rw [e, (ht.noreg i h2).2] at hj; cases hj
    · rw [h1 j e] at hj; exact hc.part j c hj

/-- Complete lines of such a client. -/
def calmLines : List Cmd → Option Cmd → Prop
  | [], none => True
  | [], some c => ∃ m l, c = .other m l ∧ ∀ p ∈ l, p.2 < maxFds
  | c :: ls, r => (∃ m l, c = .other m l ∧ (∀ p ∈ l, p.2 < maxFds) ∧ calmLines ls r) ∨ (c = .quit ∧ ls = [] ∧ r = none)

theorem rbuf_calm {s : St} (h : Inv used L s) (hc : Calm s) {i : Nat} (hi : (s.fds i).cb = some .bytes) (ls : List Cmd) (r : Option Cmd)
    (hl : calmLines ls r) : Out (fun t => Inv used L t ∧ Calm t) Imp (processRbuf s i ls r) := by
  induction ls generalizing s with
  | nil =>
    unfold processRbuf
    rw [if_pos (h.reg i (by rw [hi]; simp)).2.2.2]
    refine ⟨(setFd_ok h i (by rw [hi]; simp) { s.fds i with part := r } rfl rfl rfl).1, ?_, ?_⟩
    · intro g k hg hk
      by_cases e : g = i
      · subst e
        simp only [upd_same] at hg hk
        exact hc.back g k hg hk
      · simp only [upd_other _ _ e] at hg hk
        exact hc.back g k hg hk
    · intro j c hj
      by_cases e : j = i
      · subst e
        simp only [upd_same] at hj
        rw [hj] at hl
        exact hl
      · simp only [upd_other _ _ e] at hj
        exact hc.part j c hj
  | cons c ls ih =>
    unfold processRbuf
    rw [if_pos (h.reg i (by rw [hi]; simp)).2.2.2]
    rcases hl with ⟨m, l, e1, e2, e3⟩ | ⟨e1, e2, e3⟩
    · subst e1
      refine Out.next (other_calm h hc i m hi l e2) ?_
      intro t ⟨t1, t2, t3⟩
      exact ih t1 t2 t3 e3
    · subst e1 e2 e3
      obtain ⟨t, t1, t2, t3, t4, t5, t6, t7⟩ := quit_ok (h.log (s.log ++ [(i, .quit)])) i hi
      have e : gotCmd s i .quit = .ok t := t1
      rw [e]
      simp only [next, processRbuf]
      rw [if_neg (by rw [(t2.noreg i t6).1]; simp), if_pos trivial]
      exact ⟨t2, calm_close (s := s) hc t2 t5 t6 hi t7⟩

theorem end_calm {s : St} (h : Inv used L s) (hc : Calm s) {i : Nat} (hi : (s.fds i).cb = some .bytes) :
    Out (fun t => Inv used L t ∧ Calm t) Imp (gotEnd s i) := by
  unfold gotEnd
  refine Out.next (P := fun t => Inv used L t ∧ Calm t ∧ (t.fds i).cb = some .bytes) ?_ ?_
  · cases hp : (s.fds i).part with
    | none => exact ⟨h, hc, hi⟩
    | some c =>
      obtain ⟨m, l, e, hl⟩ := hc.part i c hp
      subst e
      simp only [processRbuf]
      rw [if_pos (h.reg i (by rw [hi]; simp)).2.2.2]
      refine Out.next (other_calm h hc i m hi l hl) ?_
      intro t ⟨t1, t2, t3⟩
      have := rbuf_calm t1 t2 t3 [] none trivial
      simp only [processRbuf] at this
      rw [if_pos (t1.reg i (by rw [t3]; simp)).2.2.2] at this ⊢
      exact ⟨this.1, this.2, by simp only [upd_same]; exact t3⟩
  · intro t ⟨t1, t2, t3⟩
    cases hl : (t.fds i).lid with
    | none =>
      obtain ⟨u, u1, u2, _, _, _, _, u7, u8, u9⟩ := close_ok t1 i t3 t.peerFd (peer_nolid t1 hl) t.peerFd
      simp only
      rw [show closeFd t i = .ok u from u1]
      have u2' : Inv used L u := by rw [← u8] at u2; exact u2
      exact ⟨u2', calm_close t2 u2' u7 u9 t3 (by rw [hl]; exact u8)⟩
    | some k =>
      simp only
      rw [if_pos (t2.back i k t3 hl)]
      obtain ⟨u, u1, u2, _, _, _, _, u7, u8, u9⟩ :=
        close_ok t1 i t3 (upd t.peerFd k none) (peer_without t1 hl) (upd t.peerFd k none)
      rw [u1]
      have u2' : Inv used L u := by rw [← u8] at u2; exact u2
      exact ⟨u2', calm_close t2 u2' u7 u9 t3 (by rw [hl]; exact u8)⟩

/-- What a calm input gives, with descriptors below the limit. -/
def calmOk : In → Prop
  | .conn f => f < maxFds
  | .lines ls r => calmLines ls r
  | _ => True

theorem callback_calm {s : St} (h : Inv used L s) (hc : Calm s) (i : Nat) (hi : (s.fds i).cb ≠ none) (x : In) (hx : calmOk x) :
    Out Calm Imp (callback s i x) := by
  unfold callback
  cases hb : (s.fds i).cb with
  | none => exact absurd hb hi
  | some c =>
    cases c with
    | connect =>
      cases x with
      | conn f =>
        simp only [hb, gotConnect]
        split
        · exact rfl
        · next ho =>
          have hcf : (s.fds f).cb = none := by
            cases hcf : (s.fds f).cb with
            | none => rfl
            | some c => exact absurd (h.reg f (by rw [hcf]; simp)).2.2.1 ho
          unfold addRfd
          rw [if_neg (by have : f < maxFds := hx; omega), if_neg (by simp [hcf])]
          refine ⟨?_, ?_⟩
          · intro g k hg hl
            by_cases e : g = f
            · subst e; simp [upd] at hl
            · simp only [upd_other _ _ e] at hg hl; exact hc.back g k hg hl
          · intro j c hj
            by_cases e : j = f
            · subst e; simp [upd] at hj
            · simp only [upd_other _ _ e] at hj; exact hc.part j c hj
      | lines ls r => simp only [hb]; exact rfl
      | eof => simp only [hb]; exact rfl
      | err => simp only [hb]; exact rfl
    | bytes =>
      cases x with
      | conn f => simp only [hb]; exact rfl
      | err => simp only [hb]; exact hc.calls _
      | lines ls r => simp only [hb]; exact (rbuf_calm (h.calls (s.calls ++ [i])) (hc.calls _) hb ls r hx).mono fun t ht => ht.2
      | eof => simp only [hb]; exact (end_calm (h.calls (s.calls ++ [i])) (hc.calls _) hb).mono fun t ht => ht.2

theorem loop_calm {s : St} (h : Inv used L s) (hc : Calm s) (l : List (Nat × In)) (hr : ∀ p ∈ l, (s.fds p.1).cb ≠ none)
    (hs : l.Pairwise fun a b => a.1 < b.1) (hx : ∀ p ∈ l, calmOk p.2) : Out Calm Imp (loop s l) := by
  induction l generalizing s with
  | nil => exact hc
  | cons a l ih =>
    obtain ⟨i, x⟩ := a
    have hci := hr (i, x) List.mem_cons_self
    rw [List.pairwise_cons] at hs
    unfold loop
    rw [if_neg (by have := (h.reg i hci).1; omega)]
    have h1 := (callback_ok h i hci x).and (callback_calm h hc i hci x (hx _ List.mem_cons_self))
    cases hq : callback s i x with
    | error e => rw [hq] at h1; exact h1.2
    | ok t =>
      rw [hq] at h1
      obtain ⟨⟨t1, t2, _⟩, tc⟩ := h1
      refine ih t1 tc ?_ hs.2 fun p hp => hx p (List.mem_cons_of_mem _ hp)
      intro p hp
      have hpc := hr p (List.mem_cons_of_mem _ hp)
      rw [t2 p.1 (by have := hs.1 p hp; simp only at this; omega) hpc]
      exact hpc

/-- Calm events with descriptors below the limit. -/
def calmStep : Ev → Prop
  | .round l => ∀ p ∈ l, calmOk p.2
  | .send _ f => f < maxFds
  | .mode _ _ => True

theorem step_calm {s : St} (h : Inv used L s) (hc : Calm s) (e : Ev) (he : calmStep e) : Out Calm Imp (step s e) := by
  cases e with
  | round l =>
    simp only [step]
    split
    · next hl =>
      obtain ⟨h1, h2⟩ := selected_spec h hl
      exact loop_calm h hc l h1 h2 he
    · exact rfl
  | send k f => exact (ensure_calm h hc k f he).mono fun t ht => ht.2.1
  | mode a b => exact ⟨hc.back, hc.part⟩

theorem run_calm {s : St} (h : Inv used L s) (hc : Calm s) (evs : List Ev) (he : ∀ e ∈ evs, calmStep e) : Out Calm Imp (run s evs) := by
  induction evs generalizing s with
  | nil => exact hc
  | cons e r ih =>
    unfold run
    have h1 := (step_ok h e).and (step_calm h hc e (he e List.mem_cons_self))
    cases hq : step s e with
    | error x => rw [hq] at h1; exact h1.2
    | ok t =>
      rw [hq] at h1
      exact ih h1.1.1 h1.2 fun e' he' => he e' (List.mem_cons_of_mem _ he')

theorem ready_calm (mylid maxid : Nat) : Calm (ready used mylid maxid L) := by
  refine ⟨?_, ?_⟩
  · intro f k hf hk
    by_cases e : f = L
    · subst e; simp [ready, upd] at hk
    · simp [ready, upd, e] at hk
  · intro j c hj
    by_cases e : j = L
    · subst e; simp [ready, upd] at hj
    · simp [ready, upd, e] at hj

/-- From the specification. -/
theorem calmLines_of (ls : List Cmd) (r : Option Cmd) (h : calmIn (.lines ls r) = true) (hg : ∀ f ∈ given (.lines ls r), f < maxFds) :
    calmLines ls r := by
  induction ls with
  | nil =>
    cases r with
    | none => exact trivial
    | some c =>
      cases c with
      | other m l =>
        refine ⟨m, l, rfl, fun p hp => hg p.2 ?_⟩
        simp only [given, List.nil_append, Option.toList_some, List.flatMap_cons, List.flatMap_nil, List.append_nil]
        exact List.mem_map.2 ⟨p, hp, rfl⟩
      | quit => simp [calmIn] at h
      | myid k => simp [calmIn] at h
      | register => simp [calmIn] at h
      | cutoff => simp [calmIn] at h
  | cons c ls ih =>
    cases c with
    | other m l =>
      refine Or.inl ⟨m, l, rfl, ?_, ih ?_ ?_⟩
      · intro p hp
        refine hg p.2 ?_
        simp only [given, List.cons_append, List.flatMap_cons]
        exact List.mem_append_left _ (List.mem_map.2 ⟨p, hp, rfl⟩)
      · cases ls with
        | nil =>
          cases r with
          | none => simp [calmIn]
          | some d => cases d <;> simp_all [calmIn]
        | cons d ls =>
          simp only [calmIn, List.dropLast_cons_cons, List.all_cons, Bool.true_and, List.getLast?_cons_cons] at h ⊢
          exact h
      · intro f hf
        refine hg f ?_
        simp only [given, List.cons_append, List.flatMap_cons] at hf ⊢
        exact List.mem_append_right _ hf
    | quit =>
      cases ls with
      | nil =>
        cases r with
        | none => exact Or.inr ⟨rfl, rfl, rfl⟩
        | some d => cases d <;> simp [calmIn] at h
      | cons d ls => simp [calmIn] at h
    | myid k => cases ls with
      | nil => cases r with
        | none => simp [calmIn] at h
        | some d => cases d <;> simp [calmIn] at h
      | cons d ls => simp [calmIn] at h
    | register => cases ls with
      | nil => cases r with
        | none => simp [calmIn] at h
        | some d => cases d <;> simp [calmIn] at h
      | cons d ls => simp [calmIn] at h
    | cutoff => cases ls with
      | nil => cases r with
        | none => simp [calmIn] at h
        | some d => cases d <;> simp [calmIn] at h
      | cons d ls => simp [calmIn] at h

theorem calmStep_of (e : Ev) (h : calmEv e = true) (hg : ∀ f ∈ givenEv e, f < maxFds) : calmStep e := by
  cases e with
  | round l =>
    intro p hp
    have h1 : calmIn p.2 = true := List.all_eq_true.1 h p hp
    have h2 : ∀ f ∈ given p.2, f < maxFds := fun f hf => hg f (List.mem_flatMap.2 ⟨p, hp, hf⟩)
    cases hx : p.2 with
    | conn f => rw [hx] at h2; exact h2 f (by simp [given])
    | lines ls r => rw [hx] at h1 h2; exact calmLines_of ls r h1 h2
    | eof => exact trivial
    | err => exact trivial
  | send k f => exact hg f (by simp [givenEv])
  | mode a b => exact trivial

end Laik.Lp
