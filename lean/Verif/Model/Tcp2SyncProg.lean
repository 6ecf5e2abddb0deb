import Verif.Model.Tcp2SyncSys
import Mathlib.Algebra.BigOperators.Group.Finset.Basic
import Mathlib.Algebra.Order.BigOperators.Group.Finset
/-!
# Synchronizations over the TCP2 backend go on, and end
-/

namespace Laik.Ks
open Laik

variable {w : Prg}

/-! ### Progress -/

theorem go_en {P : Proc} (hr : P.rd < w.rs.length) (h : ¬ (P.loop = true ∧ P.exit = false)) (hpc : P.pc ≠ .idle) :
    ∃ x, go w.cfg P = some x := by
  obtain ⟨rd, pc, loop, out, st, kvs, name, chg, rcv, exit⟩ := P
  simp only at hr h hpc
  unfold go
  simp only [rnd_cfg hr, if_neg h]
  cases pc with
  | idle => exact absurd rfl hpc
  | allow => cases name <;> exact ⟨_, rfl⟩
  | wait => dsimp only; split <;> exact ⟨_, rfl⟩
  | ask lid => exact ⟨_, rfl⟩
  | collect lid => dsimp only; split <;> exact ⟨_, rfl⟩

theorem act_go {g : Sys} {p : Nat} (hp : p < w.n) (ho : (g.proc p).out = []) (hr : (g.proc p).rd < w.rs.length)
    (h : ¬ ((g.proc p).loop = true ∧ (g.proc p).exit = false)) (hpc : (g.proc p).pc ≠ .idle) :
    ∃ a r, act w.cfg g a = some r := by
  obtain ⟨x, hx⟩ := go_en hr h hpc
  refine ⟨.go p, x.map fun P => { g with proc := upd1 g.proc p P }, ?_⟩
  simp only [act]
  rw [if_pos ⟨hp, ho⟩, hx]
  rfl

theorem act_enter {g : Sys} {p : Nat} (hp : p < w.n) (ho : (g.proc p).out = []) (hr : (g.proc p).rd < w.rs.length)
    (hpc : (g.proc p).pc = .idle) : ∃ a r, act w.cfg g a = some r := by
  have : ∃ x, enter w.cfg p (g.proc p) = some x := by
    unfold enter
    rw [rnd_cfg hr]
    dsimp only
    rw [if_pos hpc]
    exact ⟨_, rfl⟩
  obtain ⟨x, hx⟩ := this
  refine ⟨.enter p, x.map fun P => { g with proc := upd1 g.proc p P }, ?_⟩
  simp only [act]
  rw [if_pos ⟨hp, ho⟩, hx]
  rfl

theorem act_handle {g : Sys} {p q : Nat} (hp : p < w.n) (hq : q < w.n) (ho : (g.proc p).out = [])
    (h : (g.proc p).loop = true) (hc : g.chan q p ≠ []) : ∃ a r, act w.cfg g a = some r := by
  refine ⟨.handle p q, ?_⟩
  simp only [act]
  rw [if_pos ⟨hp, hq, ho, .inl h⟩]
  cases hch : g.chan q p with
  | nil => exact absurd hch hc
  | cons l ls => exact ⟨_, rfl⟩

theorem feed_ne {chg : Int} {rcv : Nat} {lines rem} (h : Feed chg rcv lines rem)
    (hw : (decide (chg < 0) || decide ((rcv : Int) < chg)) = true) : lines ≠ [] := by
  rcases h with ⟨_, _, h⟩ | ⟨h1, h2⟩
  · rw [h]; simp
  · intro h0
    rw [h0] at h2
    have : rem = [] := by
      unfold dataLines at h2
      exact List.map_eq_nil_iff.1 h2.symm
    subst this
    simp only [Bool.or_eq_true, decide_eq_true_eq, List.length_nil] at hw h1
    omega

theorem cli_can {g : Sys} (hn : 0 < w.n) {p : Nat} (hp : p < w.n) (ho : (g.proc p).out = []) {R : Nat} {tld : Bool} {down}
    (hd : down = g.chan 0 p) (h : (NotSent w R p (g.proc p) tld down ∧ R < w.rs.length ∧ tld = true) ∨ Fin w R (g.proc p) tld down) :
    ∃ a r, act w.cfg g a = some r := by
  rcases h with ⟨h, hR, rfl⟩ | h
  · have hrd : (g.proc p).rd < w.rs.length := by rw [h.rd]; exact hR
    rcases h.at_ with h1 | ⟨h1, _, _, h4⟩
    · exact act_enter hp ho hrd h1.pc
    · by_cases hg : (g.proc p).loop = true ∧ (g.proc p).exit = false
      · rcases h.perm with ⟨h5, _⟩ | ⟨_, h5, h6⟩ | ⟨_, h5, _⟩
        · cases h5
        · exact act_handle hp hn ho hg.1 (by rw [← hd, h6]; simp)
        · have := h4 hg.1 (by rw [h5]; simp)
          rw [hg.2] at this
          cases this
      · exact act_go hp ho hrd hg (by rw [h1]; simp)
  · by_cases hg : (g.proc p).loop = true ∧ (g.proc p).exit = false
    · have hwt : waiting (g.proc p) = true := by
        by_contra hh
        have := h.exit hg.1 (by simpa using hh)
        rw [hg.2] at this
        cases this
      obtain ⟨rem, lines, tail, h1, h2, _⟩ := h.feed
      refine act_handle hp hn ho hg.1 ?_
      rw [← hd, h1]
      intro h0
      exact feed_ne h2 hwt (List.append_eq_nil_iff.1 h0).1
    · exact act_go hp ho h.ins.lt hg (by rw [h.pc]; simp)

/-- All processes did all synchronizations. -/
def Done (w : Prg) (g : Sys) : Prop := ∀ p, p < w.n → (g.proc p).rd = w.rs.length ∧ (g.proc p).pc = .idle

theorem progress (hw : w.OK) {g : Sys} (h : Inv w g) (hd : ¬ Done w g) : ∃ a r, act w.cfg g a = some r := by
  by_cases hout : ∃ p, p < w.n ∧ (g.proc p).out ≠ []
  · obtain ⟨p, hp, ho⟩ := hout
    refine ⟨.write p, ?_⟩
    simp only [act]
    rw [if_pos (show p < w.cfg.n from hp)]
    cases hh : (g.proc p).out with
    | nil => exact absurd hh ho
    | cons x o => exact ⟨_, rfl⟩
  · have hout : ∀ p, p < w.n → (g.proc p).out = [] := by
      intro p hp
      by_contra hh
      exact hout ⟨p, hp, hh⟩
    have heff : ∀ p q, p < w.n → eff g p q = g.chan p q := by
      intro p q hp
      unfold eff
      rw [hout p hp]
      simp
    have hn := hw.npos
    rcases h.mas.at_ with h1 | ⟨h1, h2, ⟨lid, h3, h4, h5, h6⟩ | ⟨lid, h3, h4, h5, h6⟩⟩
    · by_cases hR : (g.proc 0).rd < w.rs.length
      · exact act_enter hn (hout 0 hn) hR h1.pc
      · have hR : (g.proc 0).rd = w.rs.length := by have := h.mas.rd; omega
        have : ∃ p, p < w.n ∧ ¬ ((g.proc p).rd = w.rs.length ∧ (g.proc p).pc = .idle) := by
          by_contra hh
          exact hd fun p hp => by
            by_contra hc
            exact hh ⟨p, hp, hc⟩
        obtain ⟨p, hp, hnd⟩ := this
        have hp0 : p ≠ 0 := by rintro rfl; exact hnd ⟨hR, h1.pc⟩
        have hk := h.link p (by omega) hp
        rw [h1.pc] at hk
        obtain ⟨hk | hk, _⟩ := hk
        · exfalso
          rcases hk.at_ with k1 | ⟨_, k1, _⟩
          · exact hnd ⟨hk.rd.trans hR, k1.pc⟩
          · have := k1.lt; omega
        · exact cli_can hn hp (hout p hp) (heff 0 p hn) (.inr hk)
    · exact act_go hn (hout 0 hn) h1.lt (by rw [h6]; simp) (by rw [h3]; simp)
    · by_cases hg : (g.proc 0).loop = true ∧ (g.proc 0).exit = false
      · have hwt : waiting (g.proc 0) = true := by
          by_contra hh
          have := h6 hg.1 (by simpa using hh)
          rw [hg.2] at this
          cases this
        have hk := h.link lid h4 h5
        rw [h3] at hk
        simp only [stage] at hk
        rw [if_neg (Nat.lt_irrefl _), if_pos trivial] at hk
        rcases hk with ⟨hk | hk, _⟩ | ⟨_, rem, hk, _⟩
        · exact cli_can hn h5 (hout lid h5) (heff 0 lid hn) (.inl ⟨hk, h1.lt, rfl⟩)
        · exact cli_can hn h5 (hout lid h5) (heff 0 lid hn) (.inr hk)
        · rw [heff lid 0 h5] at hk
          exact act_handle hn h5 (hout 0 hn) hg.1 (feed_ne hk hwt)
      · exact act_go hn (hout 0 hn) h1.lt hg (by rw [h3]; simp)

/-! ### Termination -/

def off : PC → Nat
  | .idle => 0
  | .allow => 1
  | .wait => 2
  | .ask lid => 2 * lid
  | .collect lid => 2 * lid + 1

def posn (w : Prg) (P : Proc) : Nat := P.rd * (2 * w.n + 5) + off P.pc

/-- Parts of the program still to be done. -/
def left (w : Prg) (P : Proc) : Nat := w.rs.length * (2 * w.n + 5) - posn w P

/-- Work without change of the position. -/
def small (P : Proc) : Nat := 3 * P.out.length + if P.loop = true ∧ P.exit = false then 0 else 1

def leftAll (w : Prg) (g : Sys) : Nat := ∑ p ∈ Finset.range w.n, left w (g.proc p)

def smallAll (w : Prg) (g : Sys) : Nat :=
  ∑ p ∈ Finset.range w.n, small (g.proc p) + ∑ x ∈ Finset.range w.n ×ˢ Finset.range w.n, 2 * (g.chan x.1 x.2).length

theorem sum_at {ι : Type} [DecidableEq ι] {s : Finset ι} {a : ι} (ha : a ∈ s) {f f' : ι → Nat}
    (h : ∀ x, x ≠ a → f' x = f x) : ∑ x ∈ s, f' x + f a = ∑ x ∈ s, f x + f' a := by
  rw [← Finset.add_sum_erase s f ha, ← Finset.add_sum_erase s f' ha]
  have : ∑ x ∈ s.erase a, f' x = ∑ x ∈ s.erase a, f x :=
    Finset.sum_congr rfl fun x hx => h x (Finset.ne_of_mem_erase hx)
  rw [this]
  omega

theorem gotCmd_frame {P P' : Proc} {lid : Nat} {l : Bytes} (h : gotCmd P lid l = some P') :
    P'.rd = P.rd ∧ P'.pc = P.pc ∧ P'.out = P.out ∧ P'.loop = P.loop := by
  unfold gotCmd at h
  split at h
  · unfold gotKvs at h
    dsimp only at h
    split at h
    · unfold gotAllow at h
      split at h
      · injection h with h; subst h; exact ⟨rfl, rfl, rfl, rfl⟩
      · split at h
        · injection h with h; subst h; exact ⟨rfl, rfl, rfl, rfl⟩
        · split at h
          · injection h with h; subst h; exact ⟨rfl, rfl, rfl, rfl⟩
          · cases h
    · split at h
      · unfold gotChanges at h
        split at h
        · injection h with h; subst h; exact ⟨rfl, rfl, rfl, rfl⟩
        · split at h
          · injection h with h; subst h; exact ⟨rfl, rfl, rfl, rfl⟩
          · cases h
      · split at h
        · unfold gotData at h
          split at h
          · injection h with h; subst h; exact ⟨rfl, rfl, rfl, rfl⟩
          · split at h
            · cases h
            · split at h
              · rw [Option.map_eq_some_iff] at h
                obtain ⟨s, _, h⟩ := h
                subst h
                exact ⟨rfl, rfl, rfl, rfl⟩
              · cases h
        · injection h with h; subst h; exact ⟨rfl, rfl, rfl, rfl⟩
  · injection h with h; subst h; exact ⟨rfl, rfl, rfl, rfl⟩

theorem finish_posn {c : Cfg} {P P' : Proc} {i : Nat} {o} (h : finish c P i o = some P') : P'.rd = P.rd + 1 ∧ P'.pc = .idle := by
  unfold finish at h
  rw [Option.map_eq_some_iff] at h
  obtain ⟨s, _, rfl⟩ := h
  exact ⟨rfl, rfl⟩

theorem finish_lt {c : Cfg} {P P' : Proc} {i : Nat} {o} (h : finish c P i o = some P') (hb : off P.pc < 2 * w.n + 5) :
    posn w P < posn w P' := by
  obtain ⟨h1, h2⟩ := finish_posn h
  unfold posn
  rw [h1, h2, Nat.add_mul, show off .idle = 0 from rfl]
  omega

/-- Going on: back into `run_loop`, or further in the program. -/
theorem go_posn {P P' : Proc} (hr : P.rd < w.rs.length) (hb : off P.pc < 2 * w.n + 5) (h : go w.cfg P = some (some P')) :
    (¬ (P.loop = true ∧ P.exit = false) ∧ P' = { P with loop := true, exit := false }) ∨ posn w P < posn w P' := by
  obtain ⟨rd, pc, loop, out, st, kvs, name, chg, rcv, exit⟩ := P
  simp only at hr hb
  unfold go at h
  simp only [rnd_cfg hr] at h
  split at h
  · cases h
  · rename_i hne
    cases pc with
    | idle => cases h
    | allow =>
      cases name with
      | none =>
        simp only [Option.some.injEq] at h
        exact .inl ⟨hne, h.symm⟩
      | some nm =>
        simp only [Option.some.injEq] at h
        split at h
        · rw [Option.map_eq_some_iff] at h
          obtain ⟨ls, _, rfl⟩ := h
          right
          simp [posn, off]
        · cases h
    | wait =>
      dsimp only at h
      split at h
      · simp only [Option.some.injEq] at h
        exact .inl ⟨hne, h.symm⟩
      · simp only [Option.some.injEq] at h
        exact .inr (finish_lt h hb)
    | ask lid =>
      simp only [Option.some.injEq] at h
      split at h
      · rw [Option.map_eq_some_iff] at h
        obtain ⟨ls, _, rfl⟩ := h
        right
        simp [posn, off]
      · rw [Option.bind_eq_some_iff] at h
        obtain ⟨ls, _, h⟩ := h
        exact .inr (finish_lt h hb)
    | collect lid =>
      dsimp only at h
      split at h
      · simp only [Option.some.injEq] at h
        exact .inl ⟨hne, h.symm⟩
      · simp only [Option.some.injEq] at h
        subst h
        right
        simp only [posn, off]
        omega

theorem enter_posn {P P' : Proc} {p : Nat} (h : enter w.cfg p P = some (some P')) : posn w P < posn w P' := by
  unfold enter at h
  split at h
  · cases h
  · split at h
    · rename_i hpc
      simp only [Option.some.injEq] at h
      rw [Option.bind_eq_some_iff] at h
      obtain ⟨s, _, h⟩ := h
      split at h
      · injection h with h
        subst h
        unfold posn
        rw [hpc]
        show P.rd * _ + _ < P.rd * _ + off (if p = 0 then .ask 1 else .allow)
        split <;> simp [off]
      · cases h
    · cases h

/-- Bounds of the position. -/
theorem inv_bounds {g : Sys} (h : Inv w g) {p : Nat} (hp : p < w.n) :
    off (g.proc p).pc < 2 * w.n + 5 ∧ posn w (g.proc p) ≤ w.rs.length * (2 * w.n + 5) := by
  have key : off (g.proc p).pc < 2 * w.n + 5 ∧
      (((g.proc p).pc = .idle ∧ (g.proc p).rd ≤ w.rs.length) ∨ (g.proc p).rd < w.rs.length) := by
    by_cases hp0 : p = 0
    · subst hp0
      rcases h.mas.at_ with h1 | ⟨h1, h2, ⟨lid, h3, h4, h5, h6⟩ | ⟨lid, h3, h4, h5, h6⟩⟩
      · exact ⟨by rw [h1.pc]; simp [off], .inl ⟨h1.pc, h.mas.rd⟩⟩
      · exact ⟨by rw [h3]; simp only [off]; omega, .inr h1.lt⟩
      · exact ⟨by rw [h3]; simp only [off]; omega, .inr h1.lt⟩
    · have hns : ∀ {tld down}, NotSent w (g.proc 0).rd p (g.proc p) tld down → off (g.proc p).pc < 2 * w.n + 5 ∧
          (((g.proc p).pc = .idle ∧ (g.proc p).rd ≤ w.rs.length) ∨ (g.proc p).rd < w.rs.length) := by
        intro tld down hk
        rcases hk.at_ with h1 | ⟨h1, h2, _⟩
        · exact ⟨by rw [h1.pc]; simp [off], .inl ⟨h1.pc, by rw [hk.rd]; exact h.mas.rd⟩⟩
        · exact ⟨by rw [h1]; simp only [off]; omega, .inr (by rw [hk.rd]; exact h2.lt)⟩
      have hfi : ∀ {tld down}, Fin w (g.proc 0).rd (g.proc p) tld down → off (g.proc p).pc < 2 * w.n + 5 ∧
          (((g.proc p).pc = .idle ∧ (g.proc p).rd ≤ w.rs.length) ∨ (g.proc p).rd < w.rs.length) :=
        fun hk => ⟨by rw [hk.pc]; simp only [off]; omega, .inr hk.ins.lt⟩
      have hse : ∀ {down}, Sent w (g.proc 0).rd (g.proc p) down → off (g.proc p).pc < 2 * w.n + 5 ∧
          (((g.proc p).pc = .idle ∧ (g.proc p).rd ≤ w.rs.length) ∨ (g.proc p).rd < w.rs.length) :=
        fun hk => ⟨by rw [hk.pc]; simp only [off]; omega, .inr (by rw [hk.rd]; exact hk.ins.lt)⟩
      have hk := h.link p (by omega) hp
      cases hs : stage (g.proc 0).pc p with
      | untold => rw [hs] at hk; exact hk.1.elim hns hfi
      | told => rw [hs] at hk; exact hk.elim (fun k => k.1.elim hns hfi) (fun k => hse k.1)
      | got => rw [hs] at hk; exact hse hk.1
  refine ⟨key.1, ?_⟩
  unfold posn
  rcases key.2 with ⟨h1, h2⟩ | h2
  · rw [h1]
    simp only [off, Nat.add_zero]
    exact Nat.mul_le_mul_right _ h2
  · have := Nat.mul_le_mul_right (2 * w.n + 5) (show (g.proc p).rd + 1 ≤ w.rs.length from h2)
    rw [Nat.add_mul] at this
    have := key.1
    omega

/-- Every step comes nearer to the end. -/
theorem act_dec (hw : w.OK) {g g' : Sys} (h : Inv w g) {a : Act} (ha : act w.cfg g a = some (some g')) :
    leftAll w g' < leftAll w g ∨ (leftAll w g' = leftAll w g ∧ smallAll w g' < smallAll w g) := by
  have hi' : Inv w g' := by
    obtain ⟨g2, e, k⟩ := act_inv hw h ha
    injection e with e
    rw [e]; exact k
  have hmaj : ∀ p P', p < w.n → g' = { g with proc := upd1 g.proc p P' } → posn w (g.proc p) < posn w P' →
      leftAll w g' < leftAll w g := by
    intro p P' hp e hlt
    have e1 : g'.proc p = P' := by rw [e]; exact upd1_same _ _ _
    have hs := sum_at (s := Finset.range w.n) (Finset.mem_range.2 hp) (f := fun q => left w (g.proc q))
      (f' := fun q => left w (g'.proc q)) (by intro x hx; rw [e]; show left w (upd1 g.proc p P' x) = _; rw [upd1_ne _ _ hx])
    have hb := (inv_bounds hi' hp).2
    rw [e1] at hb
    unfold leftAll
    have hd : left w P' < left w (g.proc p) := by unfold left; omega
    rw [e1] at hs
    omega
  cases a with
  | enter p =>
    simp only [act] at ha
    split at ha
    · rename_i hc
      rw [Option.map_eq_some_iff] at ha
      obtain ⟨x, hx, hr⟩ := ha
      rw [Option.map_eq_some_iff] at hr
      obtain ⟨P', rfl, hr⟩ := hr
      exact .inl (hmaj p P' hc.1 hr.symm (enter_posn hx))
    · cases ha
  | go p =>
    simp only [act] at ha
    split at ha
    · rename_i hc
      rw [Option.map_eq_some_iff] at ha
      obtain ⟨x, hx, hr⟩ := ha
      rw [Option.map_eq_some_iff] at hr
      obtain ⟨P', rfl, hr⟩ := hr
      have hrd : (g.proc p).rd < w.rs.length := by
        by_contra hh
        unfold go at hx
        rw [rnd_cfg_none (by omega)] at hx
        cases hx
      rcases go_posn hrd (inv_bounds h hc.1).1 hx with ⟨h1, h2⟩ | h1
      · right
        have e1 : g'.proc p = P' := by rw [← hr]; exact upd1_same _ _ _
        have ee : ∀ x, x ≠ p → g'.proc x = g.proc x := by
          intro x hx
          rw [← hr]
          exact upd1_ne _ _ hx
        have hs := sum_at (s := Finset.range w.n) (Finset.mem_range.2 hc.1) (f := fun q => left w (g.proc q))
          (f' := fun q => left w (g'.proc q)) (by intro x hx; rw [ee x hx])
        have ht := sum_at (s := Finset.range w.n) (Finset.mem_range.2 hc.1) (f := fun q => small (g.proc q))
          (f' := fun q => small (g'.proc q)) (by intro x hx; rw [ee x hx])
        have hch : g'.chan = g.chan := by rw [← hr]
        simp only [e1] at hs ht
        have d1 : left w P' = left w (g.proc p) := by rw [h2]; rfl
        have d2 : small P' + 1 = small (g.proc p) := by
          rw [h2]
          unfold small
          rw [if_neg h1]
          simp
        unfold leftAll smallAll
        rw [hch]
        constructor <;> omega
      · exact .inl (hmaj p P' hc.1 hr.symm h1)
    · cases ha
  | write p =>
    simp only [act] at ha
    split at ha
    · rename_i hc
      cases ho : (g.proc p).out with
      | nil => rw [ho] at ha; cases ha
      | cons x o =>
        obtain ⟨q, l⟩ := x
        rw [ho] at ha
        injection ha with ha
        injection ha with ha
        have hq : q < w.n := by
          by_cases hp0 : p = 0
          · subst hp0
            exact (h.dest0 (q, l) (by rw [ho]; simp)).2
          · rw [show q = 0 from h.dest p (by omega) hc (q, l) (by rw [ho]; simp)]
            exact hw.npos
        have e1 : g'.proc p = { g.proc p with out := o } := by rw [← ha]; exact upd1_same _ _ _
        have ee : ∀ x, x ≠ p → g'.proc x = g.proc x := by
          intro x hx
          rw [← ha]
          exact upd1_ne _ _ hx
        have c1 : g'.chan p q = g.chan p q ++ [l] := by rw [← ha]; exact upd2_same _ _ _ _
        have ce : ∀ x : Nat × Nat, x ≠ (p, q) → g'.chan x.1 x.2 = g.chan x.1 x.2 := by
          intro x hx
          rw [← ha]
          exact upd2_ne _ _ (fun hh => hx (Prod.ext hh.1 hh.2))
        have hs := sum_at (s := Finset.range w.n) (Finset.mem_range.2 hc) (f := fun q => left w (g.proc q))
          (f' := fun q => left w (g'.proc q)) (by intro x hx; rw [ee x hx])
        have ht := sum_at (s := Finset.range w.n) (Finset.mem_range.2 hc) (f := fun q => small (g.proc q))
          (f' := fun q => small (g'.proc q)) (by intro x hx; rw [ee x hx])
        have hu := sum_at (s := Finset.range w.n ×ˢ Finset.range w.n) (a := (p, q))
          (Finset.mem_product.2 ⟨Finset.mem_range.2 hc, Finset.mem_range.2 hq⟩)
          (f := fun x => 2 * (g.chan x.1 x.2).length) (f' := fun x => 2 * (g'.chan x.1 x.2).length)
          (by intro x hx; rw [ce x hx])
        have d1 : left w (g'.proc p) = left w (g.proc p) := by rw [e1]; rfl
        have d2 : small (g'.proc p) + 3 = small (g.proc p) := by
          rw [e1]
          unfold small
          rw [ho]
          simp only [List.length_cons]
          omega
        have d3 : (g'.chan p q).length = (g.chan p q).length + 1 := by rw [c1]; simp
        simp only at hs ht hu
        unfold leftAll smallAll
        right
        constructor <;> omega
    · cases ha
  | handle p q =>
    simp only [act] at ha
    split at ha
    · rename_i hc
      cases hch : g.chan q p with
      | nil => rw [hch] at ha; cases ha
      | cons l ls =>
        rw [hch] at ha
        injection ha with ha
        rw [Option.map_eq_some_iff] at ha
        obtain ⟨P', hP, ha⟩ := ha
        obtain ⟨f1, f2, f3, f4⟩ := gotCmd_frame hP
        have e1 : g'.proc p = P' := by rw [← ha]; exact upd1_same _ _ _
        have ee : ∀ x, x ≠ p → g'.proc x = g.proc x := by
          intro x hx
          rw [← ha]
          exact upd1_ne _ _ hx
        have c1 : g'.chan q p = ls := by rw [← ha]; exact upd2_same _ _ _ _
        have ce : ∀ x : Nat × Nat, x ≠ (q, p) → g'.chan x.1 x.2 = g.chan x.1 x.2 := by
          intro x hx
          rw [← ha]
          exact upd2_ne _ _ (fun hh => hx (Prod.ext hh.1 hh.2))
        have hs := sum_at (s := Finset.range w.n) (Finset.mem_range.2 hc.1) (f := fun q => left w (g.proc q))
          (f' := fun q => left w (g'.proc q)) (by intro x hx; rw [ee x hx])
        have ht := sum_at (s := Finset.range w.n) (Finset.mem_range.2 hc.1) (f := fun q => small (g.proc q))
          (f' := fun q => small (g'.proc q)) (by intro x hx; rw [ee x hx])
        have hu := sum_at (s := Finset.range w.n ×ˢ Finset.range w.n) (a := (q, p))
          (Finset.mem_product.2 ⟨Finset.mem_range.2 hc.2.1, Finset.mem_range.2 hc.1⟩)
          (f := fun x => 2 * (g.chan x.1 x.2).length) (f' := fun x => 2 * (g'.chan x.1 x.2).length)
          (by intro x hx; rw [ce x hx])
        have d1 : left w (g'.proc p) = left w (g.proc p) := by
          rw [e1]
          unfold left posn
          rw [f1, f2]
        have d2 : small (g'.proc p) ≤ small (g.proc p) + 1 := by
          rw [e1]
          unfold small
          rw [f3]
          split <;> split <;> omega
        have d3 : (g.chan q p).length = (g'.chan q p).length + 1 := by rw [c1, hch]; simp
        simp only at hs ht hu
        unfold leftAll smallAll
        right
        constructor <;> omega
    · cases ha

/-- No infinite execution. -/
theorem no_inf (hw : w.OK) (f : Nat → Sys) (h0 : Reach w.cfg (f 0)) : ∃ i, ¬ Step w.cfg (f i) (f (i + 1)) := by
  by_contra hh
  push Not at hh
  have hr : ∀ i, Reach w.cfg (f i) := by
    intro i
    induction i with
    | zero => exact h0
    | succ i ih => exact .step ih (hh i)
  have hacc : ∀ x : Nat × Nat, ∀ i, x = (leftAll w (f i), smallAll w (f i)) → False := by
    intro x
    induction x using (WellFounded.prod_lex (wellFounded_lt (α := Nat)) (wellFounded_lt (α := Nat))).induction with
    | _ x ih =>
      intro i hx
      obtain ⟨a, ha⟩ := hh i
      refine ih _ ?_ (i + 1) rfl
      rw [hx]
      rcases act_dec hw (reach_inv hw (hr i)) ha with h1 | ⟨h1, h2⟩
      · exact Prod.Lex.left _ _ h1
      · rw [h1]; exact Prod.Lex.right _ h2
  exact hacc _ 0 rfl

end Laik.Ks
