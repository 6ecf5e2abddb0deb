import Verif.Model.Tcp2SyncLocal
/-!
# Steps of processes other than 0 keep the relation to process 0
-/

namespace Laik.Ks
open Laik

variable {w : Prg}

theorem notSent_enter (hw : w.OK) {R p : Nat} {P : Proc} {tld down r} (hp : p < w.n) (hp1 : 1 ≤ p)
    (h : NotSent w R p P tld down) (he : enter w.cfg p P = some r) :
    ∃ P', r = some P' ∧ NotSent w R p P' tld down ∧ P'.out = P.out := by
  rcases h.at_ with h1 | ⟨h1, _⟩
  · by_cases hR : R < w.rs.length
    · obtain ⟨P', g1, g2, g3, g4, g5, g6, g7, g8⟩ := enter_spec (p := p) hw h1 h.rd hR (by
        rcases h.perm with ⟨_, h, _⟩ | ⟨_, h, _⟩ | ⟨_, h, _⟩
        · exact .inl h
        · exact .inl h
        · exact .inr h) hp
      rw [he] at g1
      injection g1 with g1
      refine ⟨P', g1, ⟨g4, .inr ⟨?_, g2, g3, ?_⟩, by rw [g5]; exact h.perm⟩, g6⟩
      · rw [g8, if_neg (by omega)]
      · rw [g7]; intro h; cases h
    · rw [enter_none (.inl (by rw [h.rd]; omega))] at he
      cases he
  · rw [enter_none (.inr (by rw [h1]; simp))] at he
    cases he

theorem cli_enter (hw : w.OK) {R chg rcv fl p} {P : Proc} {down up s r} (hp : p < w.n) (hp1 : 1 ≤ p)
    (h : Link w R chg rcv fl p P down up s) (he : enter w.cfg p P = some r) :
    ∃ P', r = some P' ∧ Link w R chg rcv fl p P' down up s ∧ P'.out = P.out := by
  have hwait : P.pc = .wait → False := by
    intro h
    rw [enter_none (.inr (by rw [h]; simp))] at he
    cases he
  cases s with
  | untold =>
    obtain ⟨h | h, h'⟩ := h
    · obtain ⟨P', g1, g2, g3⟩ := notSent_enter hw hp hp1 h he
      exact ⟨P', g1, ⟨.inl g2, h'⟩, g3⟩
    · exact (hwait h.pc).elim
  | told =>
    rcases h with ⟨h | h, h'⟩ | ⟨h, h'⟩
    · obtain ⟨P', g1, g2, g3⟩ := notSent_enter hw hp hp1 h he
      exact ⟨P', g1, .inl ⟨.inl g2, h'⟩, g3⟩
    · exact (hwait h.pc).elim
    · exact (hwait h.pc).elim
  | got => exact (hwait h.1.pc).elim

/-- Possible results of going on in the wait loop. -/
theorem go_loop {r : Nat} {P : Proc} (hrd : P.rd = r) (hr : r < w.rs.length) {x} (hg : go w.cfg P = some x) :
    P.loop = true → P.exit = true := by
  intro h1
  cases he : P.exit with
  | true => rfl
  | false =>
    unfold go at hg
    rw [hrd, rnd_cfg hr] at hg
    simp only [h1, he, and_self, if_true] at hg
    cases hg

theorem go_wait {r : Nat} {P : Proc} (hrd : P.rd = r) (hr : r < w.rs.length) (hpc : P.pc = .wait) {x}
    (hg : go w.cfg P = some x) :
    (waiting P = true ∧ x = some { P with loop := true, exit := false }) ∨
    (waiting P = false ∧ x = finish w.cfg P (w.sid r) []) := by
  have hne : ¬ (P.loop = true ∧ P.exit = false) := by
    rintro ⟨h1, h2⟩
    rw [go_loop hrd hr hg h1] at h2
    cases h2
  obtain ⟨rd, pc, loop, out, st, kvs, name, chg, rcv, exit⟩ := P
  simp only at hrd hpc hne
  subst hrd hpc
  unfold go at hg
  simp only [rnd_cfg hr, if_neg hne] at hg
  cases hw : waiting ⟨rd, .wait, loop, out, st, kvs, name, chg, rcv, exit⟩ with
  | true =>
    rw [hw, if_pos rfl] at hg
    injection hg with hg
    exact .inl ⟨rfl, hg.symm⟩
  | false =>
    rw [hw, if_neg (by simp)] at hg
    injection hg with hg
    exact .inr ⟨rfl, hg.symm⟩

theorem sent_go {R : Nat} {P : Proc} {down x} (h : Sent w R P down) (hg : go w.cfg P = some x) :
    x = some { P with loop := true, exit := false } := by
  rcases go_wait h.rd h.ins.lt h.pc hg with ⟨_, h2⟩ | ⟨h1, _⟩
  · exact h2
  · simp only [waiting, Bool.or_eq_false_iff, decide_eq_false_iff_not, h.chg] at h1
    omega

theorem fin_go (hw : w.OK) {R p : Nat} {P : Proc} {tld down x} (h : Fin w R P tld down) (hg : go w.cfg P = some x) :
    ∃ P', x = some P' ∧ (NotSent w R p P' tld down ∨ Fin w R P' tld down) ∧ (P'.out = [] ∨ P'.out = P.out) := by
  rcases go_wait rfl h.ins.lt h.pc hg with ⟨h1, h2⟩ | ⟨h1, h2⟩
  · exact ⟨_, h2, .inr (h.congr ⟨rfl, rfl, rfl, rfl, rfl, rfl, rfl⟩ (by intro _ _ h3; rw [h1] at h3; cases h3)), .inr rfl⟩
  · obtain ⟨rem, lines, tail, k1, k2, k3, k4, k5, k6⟩ := h.feed
    obtain ⟨rfl, rfl⟩ := k2.done h1
    obtain ⟨P', g1, g2, g3, g4, g5⟩ := finish_spec hw h.ins rfl k4 []
    refine ⟨P', h2.trans g1, .inl ⟨g3.trans h.rd, .inl ?_, ?_⟩, .inl g5⟩
    · rw [← h.rd]; exact g2
    · rw [g4, k1]; exact k5

theorem again_same (P : Proc) : Same P { P with loop := true, exit := false } := ⟨rfl, rfl, rfl, rfl, rfl, rfl, rfl⟩

/-- Going on at the head of the wait loop for the permission. -/
theorem notSent_go (hw : w.OK) {R p : Nat} {P : Proc} {tld down x} (h : NotSent w R p P tld down)
    (hg : go w.cfg P = some x) :
    (x = some { P with loop := true, exit := false } ∧ NotSent w R p { P with loop := true, exit := false } tld down) ∨
    (tld = true ∧ ∃ P' L, x = some P' ∧ Sent w R P' down ∧
      P'.out = (changesLine L.length :: dataLines L).map (fun l => (0, l)) ∧ (∀ x ∈ L, w.U R x.1 x.2) ∧
      Own w R p (fun _ => False) L) := by
  rcases h.at_ with h1 | ⟨h1, h2, h3, h4⟩
  · exfalso
    unfold go at hg
    rw [h1.pc] at hg
    split at hg
    · cases hg
    · dsimp only at hg
      split at hg <;> cases hg
  · have hne : ¬ (P.loop = true ∧ P.exit = false) := by
      rintro ⟨k1, k2⟩
      rw [go_loop h.rd h2.lt hg k1] at k2
      cases k2
    have hsame := again_same P
    have hcong := fun he => h.congr hsame he
    have hlt := h2.lt
    have hrd := h.rd
    have hperm := h.perm
    obtain ⟨L, c1, c2, c3⟩ := h2.part.lines (fun k v => U_pair hw)
    obtain ⟨rd, pc, loop, out, st, kvs, name, chg, rcv, exit⟩ := P
    simp only at hrd h1 hne hperm
    subst hrd h1
    unfold go at hg
    simp only [rnd_cfg hlt, if_neg hne] at hg
    cases name with
    | none =>
      simp only at hg
      injection hg with hg
      exact .inl ⟨hg.symm, hcong (by intro _ _ _ h; exact absurd rfl h)⟩
    | some nme =>
      have hnm : nme = w.name rd ∧ tld = true ∧ down = [] := by
        rcases hperm with ⟨_, h, _⟩ | ⟨_, h, _⟩ | ⟨h0, h, h'⟩
        · cases h
        · cases h
        · injection h with h
          exact ⟨h, h0, h'⟩
      obtain ⟨rfl, rfl, rfl⟩ := hnm
      dsimp only at hg
      rw [if_pos (show w.name rd = w.cfg.nm (w.sid rd) from rfl), c1] at hg
      injection hg with hg
      refine .inr ⟨rfl, _, L, hg.symm, ⟨rfl, rfl, h2.congr rfl rfl, rfl, rfl, rfl, rfl⟩, rfl, c2, ?_⟩
      intro k v hl
      rcases h3 k v hl with h | h | ⟨_, h⟩
      · exact .inl h
      · exact .inr (.inr (c3 k h))
      · cases h

theorem cli_go (hw : w.OK) {R chg rcv fl p} {P : Proc} {down up s x} (hout : P.out = [])
    (h : Link w R chg rcv fl p P down up s) (hg : go w.cfg P = some x) :
    ∃ P', x = some P' ∧ Link w R chg rcv fl p P' down (up ++ P'.out.map (·.2)) s ∧ ∀ y ∈ P'.out, y.1 = 0 := by
  have again : ∀ P', P'.out = [] → Link w R chg rcv fl p P' down up s → x = some P' →
      ∃ P', x = some P' ∧ Link w R chg rcv fl p P' down (up ++ P'.out.map (·.2)) s ∧ ∀ y ∈ P'.out, y.1 = 0 := by
    intro P' h1 h2 h3
    refine ⟨P', h3, ?_, by rw [h1]; simp⟩
    rw [h1]
    simpa using h2
  have out2 : ∀ {P' : Proc}, (P'.out = [] ∨ P'.out = P.out) → P'.out = [] := by
    intro P' h
    rcases h with h | h
    · exact h
    · exact h.trans hout
  cases s with
  | untold =>
    obtain ⟨h | h, h'⟩ := h
    · rcases notSent_go hw h hg with ⟨h1, h2⟩ | ⟨h1, _⟩
      · exact again { P with loop := true, exit := false } hout ⟨.inl h2, h'⟩ h1
      · cases h1
    · obtain ⟨P', h1, h2, h3⟩ := fin_go (p := p) hw h hg
      exact again P' (out2 h3) ⟨h2, h'⟩ h1
  | told =>
    rcases h with ⟨h | h, h'⟩ | ⟨h, h'⟩
    · rcases notSent_go hw h hg with ⟨h1, h2⟩ | ⟨_, P', L, h1, h2, h3, h4, h5⟩
      · exact again { P with loop := true, exit := false } hout (.inl ⟨.inl h2, h'⟩) h1
      · obtain ⟨rfl, rfl, rfl⟩ := h'
        refine ⟨P', h1, .inr ⟨h2, L, ?_, h4, h5.mono (by intro _ h; cases h) (fun _ h => .inl h)⟩, ?_⟩
        · rw [h3]
          refine .inl ⟨rfl, rfl, ?_⟩
          simp [Function.comp_def]
        · rw [h3]
          intro y hy
          rw [List.mem_map] at hy
          obtain ⟨l, _, rfl⟩ := hy
          rfl
    · obtain ⟨P', h1, h2, h3⟩ := fin_go (p := p) hw h hg
      exact again P' (out2 h3) (.inl ⟨h2, h'⟩) h1
    · exact again { P with loop := true, exit := false } hout (.inr ⟨h.congr (again_same P), h'⟩) (sent_go h hg)
  | got => exact again { P with loop := true, exit := false } hout ⟨h.1.congr (again_same P), h.2⟩ (sent_go h.1 hg)

theorem notSent_handle (hw : w.OK) {R p : Nat} {P : Proc} {tld l down} (hlt : R < w.rs.length)
    (h : NotSent w R p P tld (l :: down)) :
    ∃ P', gotCmd P 0 l = some P' ∧ NotSent w R p P' tld down ∧ P'.out = P.out := by
  rcases h.perm with ⟨_, _, h1⟩ | ⟨h0, h1, h2⟩ | ⟨_, _, h1⟩
  · cases h1
  · rw [List.cons.injEq] at h2
    obtain ⟨rfl, rfl⟩ := h2
    refine ⟨_, got_allow (hw.name _ (rnd_mem hlt)) P h1, ⟨h.rd, ?_, .inr (.inr ⟨h0, rfl, rfl⟩)⟩, rfl⟩
    rcases h.at_ with h1 | ⟨h1, h2, h3, h4⟩
    · exact .inl (h1.congr rfl rfl rfl)
    · exact .inr ⟨h1, h2.congr rfl rfl, h3, fun _ _ => rfl⟩
  · cases h1

theorem fin_handle (hw : w.OK) {R : Nat} {P : Proc} {tld l down} (hlt : tld = true → R < w.rs.length)
    (h : Fin w R P tld (l :: down)) :
    ∃ P', gotCmd P 0 l = some P' ∧ Fin w R P' tld down ∧ P'.out = P.out := by
  obtain ⟨rem, lines, tail, h1, h2, h3, h4, h5, h6⟩ := h.feed
  cases lines with
  | nil =>
    rw [List.nil_append] at h1
    rcases h5 with ⟨_, _, k1⟩ | ⟨h0, k1, k2⟩ | ⟨_, _, k1⟩
    · rw [k1] at h1; cases h1
    · rw [k2, List.cons.injEq] at h1
      obtain ⟨rfl, rfl⟩ := h1
      refine ⟨_, got_allow (hw.name _ (rnd_mem (hlt h0))) P k1,
        ⟨h.rd, h.pc, h.ins.congr rfl rfl, fun _ _ => rfl, rem, [], [], rfl, h2, h3, h4, .inr (.inr ⟨h0, rfl, rfl⟩),
          fun _ => rfl⟩, rfl⟩
    · rw [k1] at h1; cases h1
  | cons l' lines =>
    rw [List.cons_append, List.cons.injEq] at h1
    obtain ⟨rfl, rfl⟩ := h1
    obtain ⟨P', rem', g1, g2, g3, g4, g5, g6, g7, g8, g9, g10, g11, g12⟩ := feed_spec (lid := 0) hw h.ins h2 h3
    refine ⟨P', g1, ⟨by rw [g8]; exact h.rd, g9.trans h.pc, by rw [g8]; exact g2, fun _ => g7, rem', lines, tail, rfl, g3,
      ?_, ?_, by rw [g12]; exact h5, ?_⟩, g11⟩
    · rw [g8]; intro x hx; exact h3 x (g4 x hx)
    · rw [g8]; exact h4.mono g5 g6
    · rw [g12]
      intro hn
      cases h6 hn

theorem cli_handle (hw : w.OK) {R chg rcv fl p} {P : Proc} {l down up s} (hlt : s = .told → R < w.rs.length)
    (h : Link w R chg rcv fl p P (l :: down) up s) :
    ∃ P', gotCmd P 0 l = some P' ∧ Link w R chg rcv fl p P' down up s ∧ P'.out = P.out := by
  cases s with
  | untold =>
    obtain ⟨h | h, h'⟩ := h
    · rcases h.perm with ⟨_, _, h1⟩ | ⟨h0, _⟩ | ⟨h0, _⟩
      · cases h1
      · cases h0
      · cases h0
    · obtain ⟨P', g1, g2, g3⟩ := fin_handle hw (by intro h; cases h) h
      exact ⟨P', g1, ⟨.inr g2, h'⟩, g3⟩
  | told =>
    rcases h with ⟨h | h, h'⟩ | ⟨h, h'⟩
    · obtain ⟨P', g1, g2, g3⟩ := notSent_handle hw (hlt rfl) h
      exact ⟨P', g1, .inl ⟨.inl g2, h'⟩, g3⟩
    · obtain ⟨P', g1, g2, g3⟩ := fin_handle hw (fun _ => hlt rfl) h
      exact ⟨P', g1, .inl ⟨.inr g2, h'⟩, g3⟩
    · cases h.down
  | got => cases h.1.down

end Laik.Ks
