import Verif.Model.Tcp2SyncCli
/-!
# All steps keep the invariant of synchronizations over the TCP2 backend
-/

namespace Laik.Ks
open Laik

variable {w : Prg}

theorem Inv.cli {g g' : Sys} (h : Inv w g) {p : Nat} (hp1 : 1 ≤ p) (h0 : g'.proc 0 = g.proc 0)
    (hq : ∀ q, q ≠ p → g'.proc q = g.proc q)
    (hc : ∀ a b, ¬ (a = 0 ∧ b = p) → ¬ (a = p ∧ b = 0) → g'.chan a b = g.chan a b)
    (hd : ∀ x ∈ (g'.proc p).out, x.1 = 0)
    (hl : Link w (g.proc 0).rd (g.proc 0).chg (g.proc 0).rcv (flagOf w (g.proc 0).rd (g.proc 0)) p
      (g'.proc p) (eff g' 0 p) (eff g' p 0) (stage (g.proc 0).pc p)) : Inv w g' := by
  refine ⟨by rw [h0]; exact h.mas, by rw [h0]; exact h.dest0, ?_, ?_, ?_, ?_⟩
  · intro q h1 h2
    by_cases hqp : q = p
    · subst hqp; exact hd
    · rw [hq q hqp]; exact h.dest q h1 h2
  · rw [hc 0 0 (by omega) (by omega)]; exact h.self
  · intro a b ha hb
    rw [hc a b (by omega) (by omega)]; exact h.cross a b ha hb
  · intro q h1 h2
    rw [h0]
    by_cases hqp : q = p
    · subst hqp; exact hl
    · have e1 : eff g' 0 q = eff g 0 q := by
        unfold eff
        rw [h0, hc 0 q (by omega) (by omega)]
      have e2 : eff g' q 0 = eff g q 0 := by
        unfold eff
        rw [hq q hqp, hc q 0 (by omega) (by omega)]
      rw [e1, e2, hq q hqp]
      exact h.link q h1 h2

theorem filter_all {o : List (Nat × Bytes)} {q : Nat} (h : ∀ x ∈ o, x.1 = q) : o.filter (·.1 = q) = o := by
  rw [List.filter_eq_self]
  intro x hx
  simpa using h x hx

theorem upd1_same {α : Type} (f : Nat → α) (p : Nat) (a : α) : upd1 f p a p = a := by
  unfold upd1; rw [if_pos rfl]

theorem upd1_ne {α : Type} (f : Nat → α) {p q : Nat} (a : α) (h : q ≠ p) : upd1 f p a q = f q := by
  unfold upd1; rw [if_neg h]

theorem upd2_same {α : Type} (f : Nat → Nat → α) (p q : Nat) (a : α) : upd2 f p q a p q = a := by
  unfold upd2; rw [if_pos ⟨rfl, rfl⟩]

theorem upd2_ne {α : Type} (f : Nat → Nat → α) {p q x y : Nat} (a : α) (h : ¬ (x = p ∧ y = q)) :
    upd2 f p q a x y = f x y := by
  unfold upd2; rw [if_neg h]

/-- A process other than 0 changes its state, and writes. -/
theorem inv_cli_local {g : Sys} (h : Inv w g) {p : Nat} (hp1 : 1 ≤ p) {P' : Proc}
    (hout : (g.proc p).out = []) (hd : ∀ x ∈ P'.out, x.1 = 0)
    (hl : Link w (g.proc 0).rd (g.proc 0).chg (g.proc 0).rcv (flagOf w (g.proc 0).rd (g.proc 0)) p
      P' (eff g 0 p) (eff g p 0 ++ P'.out.map (·.2)) (stage (g.proc 0).pc p)) :
    Inv w { g with proc := upd1 g.proc p P' } := by
  refine h.cli hp1 (upd1_ne _ _ (by omega)) (fun q hq => upd1_ne _ _ hq) (fun _ _ _ _ => rfl) ?_ ?_
  · show ∀ x ∈ (upd1 g.proc p P' p).out, x.1 = 0
    rw [upd1_same]; exact hd
  · have e1 : eff { g with proc := upd1 g.proc p P' } 0 p = eff g 0 p := by
      unfold eff
      show g.chan 0 p ++ (((upd1 g.proc p P' 0).out).filter _).map _ = _
      rw [upd1_ne _ _ (show 0 ≠ p by omega)]
    have e2 : eff { g with proc := upd1 g.proc p P' } p 0 = eff g p 0 ++ P'.out.map (·.2) := by
      unfold eff
      show g.chan p 0 ++ (((upd1 g.proc p P' p).out).filter _).map _ = _
      rw [upd1_same, hout, filter_all hd]
      simp
    rw [e1, e2]
    show Link _ _ _ _ _ _ (upd1 g.proc p P' p) _ _ _
    rw [upd1_same]
    exact hl

theorem Mas.congr {M M' : Proc} (h : Mas w M) (hs : Same M M') (h1 : M'.loop = M.loop) (h2 : M'.exit = M.exit) : Mas w M' := by
  refine ⟨by rw [hs.rd]; exact h.rd, hs.name.trans h.name, ?_⟩
  rw [hs.rd, hs.pc, h1, h2, hs.waiting, flagOf_congr hs.st]
  rcases h.at_ with h | ⟨k1, k2, k3⟩
  · exact .inl (h.congr hs.pc hs.kvs hs.st)
  · exact .inr ⟨k1.congr hs.kvs hs.st, k2, k3⟩

/-- A process writes a line. -/
theorem inv_write {g : Sys} (h : Inv w g) {p q : Nat} {l : Bytes} {o : List (Nat × Bytes)} (hp : p < w.n)
    (ho : (g.proc p).out = (q, l) :: o) :
    Inv w ⟨upd1 g.proc p { g.proc p with out := o }, upd2 g.chan p q (g.chan p q ++ [l])⟩ := by
  have heff : ∀ a b, eff ⟨upd1 g.proc p { g.proc p with out := o }, upd2 g.chan p q (g.chan p q ++ [l])⟩ a b = eff g a b := by
    intro a b
    unfold eff
    show upd2 g.chan p q (g.chan p q ++ [l]) a b ++ ((upd1 g.proc p { g.proc p with out := o } a).out.filter _).map _ = _
    by_cases ha : a = p
    · subst ha
      rw [upd1_same, ho]
      by_cases hb : b = q
      · subst hb
        rw [upd2_same]
        simp
      · rw [upd2_ne _ _ (by tauto)]
        have : ¬ q = b := fun h => hb h.symm
        simp [this]
    · rw [upd1_ne _ _ ha, upd2_ne _ _ (by tauto)]
  have hproc : ∀ a, Same (g.proc a) (upd1 g.proc p { g.proc p with out := o } a) ∧
      (upd1 g.proc p { g.proc p with out := o } a).loop = (g.proc a).loop ∧
      (upd1 g.proc p { g.proc p with out := o } a).exit = (g.proc a).exit ∧
      ∀ x ∈ (upd1 g.proc p { g.proc p with out := o } a).out, x ∈ (g.proc a).out := by
    intro a
    by_cases ha : a = p
    · subst ha
      rw [upd1_same]
      refine ⟨⟨rfl, rfl, rfl, rfl, rfl, rfl, rfl⟩, rfl, rfl, ?_⟩
      intro x hx
      rw [ho]
      exact List.mem_cons_of_mem _ hx
    · rw [upd1_ne _ _ ha]
      exact ⟨⟨rfl, rfl, rfl, rfl, rfl, rfl, rfl⟩, rfl, rfl, fun x hx => hx⟩
  have hdst : (p = 0 ∧ 1 ≤ q) ∨ (1 ≤ p ∧ q = 0) := by
    by_cases h0 : p = 0
    · subst h0
      exact .inl ⟨rfl, (h.dest0 (q, l) (by rw [ho]; simp)).1⟩
    · exact .inr ⟨by omega, h.dest p (by omega) hp (q, l) (by rw [ho]; simp)⟩
  obtain ⟨m1, m2, m3, m4⟩ := hproc 0
  refine ⟨h.mas.congr m1 m2 m3, fun x hx => h.dest0 x (m4 x hx), fun a h1 h2 x hx => h.dest a h1 h2 x ((hproc a).2.2.2 x hx),
    ?_, ?_, ?_⟩
  · show upd2 _ _ _ _ 0 0 = []
    rw [upd2_ne _ _ (by omega)]; exact h.self
  · intro a b ha hb
    show upd2 _ _ _ _ a b = []
    rw [upd2_ne _ _ (by omega)]; exact h.cross a b ha hb
  · intro a h1 h2
    rw [heff, heff]
    show Link w (upd1 g.proc p { g.proc p with out := o } 0).rd (upd1 g.proc p { g.proc p with out := o } 0).chg
      (upd1 g.proc p { g.proc p with out := o } 0).rcv (flagOf w (upd1 g.proc p { g.proc p with out := o } 0).rd
      (upd1 g.proc p { g.proc p with out := o } 0)) a (upd1 g.proc p { g.proc p with out := o } a) _ _
      (stage (upd1 g.proc p { g.proc p with out := o } 0).pc a)
    rw [m1.rd, m1.chg, m1.rcv, m1.pc, flagOf_congr m1.st]
    obtain ⟨k1, k2, k3, -⟩ := hproc a
    exact (h.link a h1 h2).congr k1 (by intro _ h; rw [k2, k3]; exact h) (by intro _ h; rw [k2, k3]; exact h)

/-- Process 0 changes its state, and writes. -/
theorem inv_mas_local {g : Sys} (h : Inv w g) {M : Proc} (hout : (g.proc 0).out = []) (hm : Mas w M)
    (hd : ∀ x ∈ M.out, 1 ≤ x.1 ∧ x.1 < w.n)
    (hl : ∀ p, 1 ≤ p → p < w.n → Link w M.rd M.chg M.rcv (flagOf w M.rd M) p (g.proc p)
      (eff g 0 p ++ (M.out.filter (·.1 = p)).map (·.2)) (eff g p 0) (stage M.pc p)) :
    Inv w { g with proc := upd1 g.proc 0 M } := by
  have e0 : ({ g with proc := upd1 g.proc 0 M } : Sys).proc 0 = M := upd1_same g.proc 0 M
  have eq : ∀ q, 1 ≤ q → ({ g with proc := upd1 g.proc 0 M } : Sys).proc q = g.proc q :=
    fun q hq => upd1_ne _ _ (by omega)
  refine ⟨by rw [e0]; exact hm, by rw [e0]; exact hd, fun p h1 h2 => by rw [eq p h1]; exact h.dest p h1 h2, h.self, h.cross, ?_⟩
  intro p h1 h2
  have f1 : eff { g with proc := upd1 g.proc 0 M } 0 p = eff g 0 p ++ (M.out.filter (·.1 = p)).map (·.2) := by
    unfold eff
    rw [e0, hout]
    simp
  have f2 : eff { g with proc := upd1 g.proc 0 M } p 0 = eff g p 0 := by
    unfold eff
    rw [eq p h1]
  rw [e0, eq p h1, f1, f2]
  exact hl p h1 h2

theorem mas_enter (hw : w.OK) {g : Sys} (h : Inv w g) (hout : (g.proc 0).out = []) {r}
    (he : enter w.cfg 0 (g.proc 0) = some r) :
    ∃ M, r = some M ∧ Inv w { g with proc := upd1 g.proc 0 M } := by
  rcases h.mas.at_ with h1 | ⟨_, _, ⟨lid, h2, _⟩ | ⟨lid, h2, _⟩⟩
  · by_cases hR : (g.proc 0).rd < w.rs.length
    · obtain ⟨M, g1, g2, g3, g4, g5, g6, g7, g8⟩ := enter_spec (p := 0) hw h1 rfl hR (.inl h.mas.name) hw.npos
      rw [he] at g1
      injection g1 with g1
      rw [if_pos rfl] at g8
      refine ⟨M, g1, inv_mas_local h hout ⟨by rw [g4]; omega, g5.trans h.mas.name, .inr ?_⟩ ?_ ?_⟩
      · rw [g4]
        exact ⟨g2, g3, .inl ⟨1, g8, Nat.le_refl _, hw.npos, g7⟩⟩
      · rw [g6, hout]; simp
      · intro p hp1 hp
        have := h.link p hp1 hp
        rw [h1.pc] at this
        rw [g8, g6, hout, g4]
        simp only [stage] at this ⊢
        rw [if_neg (show ¬ p < 1 by omega)]
        simpa using (show Link w (g.proc 0).rd M.chg M.rcv (flagOf w (g.proc 0).rd M) p (g.proc p) (eff g 0 p)
          (eff g p 0) .untold from this)
    · rw [enter_none (.inl (by omega))] at he
      cases he
  · rw [enter_none (.inr (by rw [h2]; simp))] at he
    cases he
  · rw [enter_none (.inr (by rw [h2]; simp))] at he
    cases he

/-- Result of going on in process 0. -/
theorem mas_go_ask {M : Proc} (hr : M.rd < w.rs.length) {lid : Nat} (hpc : M.pc = .ask lid) (hl : M.loop = false) :
    go w.cfg M = some (if lid < w.n then
          ((allowMsg (w.name M.rd)).bind wireLines).map fun ls =>
            { M with out := ls.map fun l => (lid, l), chg := -1, rcv := 0, pc := .collect lid, loop := false }
        else
          (changeLines (M.st (w.sid M.rd))).bind fun ls =>
            finish w.cfg M (w.sid M.rd) (ls.flatMap fun l => (List.range' 1 (w.n - 1)).map fun lid => (lid, l))) := by
  obtain ⟨rd, pc, loop, out, st, kvs, name, chg, rcv, exit⟩ := M
  simp only at hpc hl hr
  subst hpc hl
  unfold go
  simp only [rnd_cfg hr]
  rw [if_neg (by simp)]
  rfl

theorem mas_go_collect {M : Proc} (hr : M.rd < w.rs.length) {lid : Nat} (hpc : M.pc = .collect lid) {x}
    (hg : go w.cfg M = some x) :
    x = some (if waiting M then { M with loop := true, exit := false }
      else { M with pc := .ask (lid + 1), loop := false }) := by
  have hne : ¬ (M.loop = true ∧ M.exit = false) := by
    rintro ⟨k1, k2⟩
    rw [go_loop rfl hr hg k1] at k2
    cases k2
  obtain ⟨rd, pc, loop, out, st, kvs, name, chg, rcv, exit⟩ := M
  simp only at hpc hr hne
  subst hpc
  unfold go at hg
  simp only [rnd_cfg hr, if_neg hne] at hg
  split at hg
  · rename_i hw; rw [if_pos hw]; injection hg with hg; exact hg.symm
  · rename_i hw; rw [if_neg hw]; injection hg with hg; exact hg.symm

theorem flat_filter (ls : List Bytes) {n p : Nat} (h1 : 1 ≤ p) (h2 : p < n) :
    (((ls.flatMap fun l => (List.range' 1 (n - 1)).map fun lid => (lid, l)).filter (·.1 = p)).map (·.2)) = ls := by
  induction ls with
  | nil => rfl
  | cons l ls ih =>
    rw [List.flatMap_cons, List.filter_append, List.map_append, ih]
    have : (((List.range' 1 (n - 1)).map fun lid => (lid, l)).filter (·.1 = p)) = [(p, l)] := by
      rw [List.filter_map]
      have hf : (List.range' 1 (n - 1)).filter ((fun x : Nat × Bytes => decide (x.1 = p)) ∘ fun lid => (lid, l)) = [p] := by
        have hnd : ((List.range' 1 (n - 1)).filter ((fun x : Nat × Bytes => decide (x.1 = p)) ∘ fun lid => (lid, l))).Nodup :=
          (List.nodup_range' (step := 1)).filter _
        have hmem : ∀ x, x ∈ (List.range' 1 (n - 1)).filter ((fun x : Nat × Bytes => decide (x.1 = p)) ∘ fun lid => (lid, l)) ↔
            x = p := by
          intro x
          rw [List.mem_filter, List.mem_range'_1]
          simp only [Function.comp, decide_eq_true_eq]
          omega
        exact List.perm_singleton.1 ((List.perm_ext_iff_of_nodup hnd (by simp)).2 (by simpa using hmem))
      rw [hf]
      rfl
    rw [this]
    rfl

theorem mas_go (hw : w.OK) {g : Sys} (h : Inv w g) (hout : (g.proc 0).out = []) {x}
    (hg : go w.cfg (g.proc 0) = some x) :
    ∃ M, x = some M ∧ Inv w { g with proc := upd1 g.proc 0 M } := by
  rcases h.mas.at_ with h1 | ⟨h1, h2, ⟨lid, h3, h4, h5, h6⟩ | ⟨lid, h3, h4, h5, h6⟩⟩
  · exfalso
    unfold go at hg
    rw [h1.pc] at hg
    split at hg
    · cases hg
    · dsimp only at hg
      split at hg <;> cases hg
  · rw [mas_go_ask h1.lt h3 h6] at hg
    injection hg with hg
    by_cases hlid : lid < w.n
    · rw [if_pos hlid, show (allowMsg (w.name (g.proc 0).rd)).bind wireLines = some [allowLine (w.name (g.proc 0).rd)] from
        allow_sent (hw.name _ (rnd_mem h1.lt))] at hg
      refine ⟨_, hg.symm, inv_mas_local h hout ⟨h.mas.rd, h.mas.name, .inr ⟨h1.congr rfl rfl, h2,
        .inr ⟨lid, rfl, h4, hlid, fun h => by cases h⟩⟩⟩ ?_ ?_⟩
      · intro x hx
        simp only [List.map_cons, List.map_nil, List.mem_singleton] at hx
        subst hx
        exact ⟨h4, hlid⟩
      · intro p hp1 hp
        have hk := h.link p hp1 hp
        rw [h3] at hk
        simp only [stage, List.map_cons, List.map_nil] at hk ⊢
        by_cases hpl : p < lid
        · rw [if_pos hpl] at hk ⊢
          have : ¬ lid = p := by omega
          simp only [List.filter_cons, this, decide_false, List.filter_nil, Bool.false_eq_true, if_false, List.map_nil,
            List.append_nil]
          exact hk.counters (by simp)
        · rw [if_neg hpl] at hk ⊢
          by_cases hpe : p = lid
          · subst hpe
            rw [if_pos rfl]
            simp only [List.filter_cons, decide_true, List.filter_nil, if_true, List.map_cons, List.map_nil]
            obtain ⟨hk | hk, hup⟩ := hk
            · refine .inl ⟨.inl ⟨hk.rd, hk.at_, ?_⟩, hup, rfl, rfl⟩
              rcases hk.perm with ⟨_, k1, k2⟩ | ⟨k0, _⟩ | ⟨k0, _⟩
              · exact .inr (.inl ⟨rfl, k1, by rw [k2]; rfl⟩)
              · cases k0
              · cases k0
            · refine .inl ⟨.inr ⟨hk.rd, hk.pc, hk.ins, hk.exit, ?_⟩, hup, rfl, rfl⟩
              obtain ⟨rem, lines, tail, k1, k2, k3, k4, k5, k6⟩ := hk.feed
              rcases k5 with ⟨_, j1, j2⟩ | ⟨k0, _⟩ | ⟨k0, _⟩
              · subst j2
                refine ⟨rem, lines, [allowLine (w.name (g.proc 0).rd)], by rw [k1, List.append_nil], k2, k3, k4,
                  .inr (.inl ⟨rfl, j1, rfl⟩), k6⟩
              · cases k0
              · cases k0
          · rw [if_neg hpe]
            have : ¬ lid = p := by omega
            simp only [List.filter_cons, this, decide_false, List.filter_nil, Bool.false_eq_true, if_false, List.map_nil,
            List.append_nil]
            exact hk.counters (by simp)
    · have hlid : lid = w.n := by omega
      rw [if_neg (by omega)] at hg
      obtain ⟨L, c1, c2, c3⟩ := h1.part.lines (fun k v => U_pair hw)
      rw [c1, Option.bind_some] at hg
      have hgot : ∀ p, 1 ≤ p → p < w.n → Link w (g.proc 0).rd (g.proc 0).chg (g.proc 0).rcv
          (flagOf w (g.proc 0).rd (g.proc 0)) p (g.proc p) (eff g 0 p) (eff g p 0) .got := by
        intro p hp1 hp
        have hk := h.link p hp1 hp
        rw [h3] at hk
        simp only [stage] at hk
        rw [if_pos (by omega)] at hk
        exact hk
      have hall : All w (g.proc 0).rd (flagOf w (g.proc 0).rd (g.proc 0)) [] := by
        rintro k v ⟨p, hp, hl⟩
        by_cases hp0 : p = 0
        · subst hp0; exact h2 k v hl
        · exact (hgot p (by omega) hp).2.2 k v hl
      obtain ⟨M, f1, f2, f3, f4, f5⟩ := finish_spec hw h1 rfl hall
        ((changesLine L.length :: dataLines L).flatMap fun l => (List.range' 1 (w.n - 1)).map fun lid => (lid, l))
      refine ⟨M, hg.symm.trans f1, inv_mas_local h hout ⟨by rw [f3]; exact h1.lt, f4.trans h.mas.name, .inl (by rw [f3]; exact f2)⟩ ?_ ?_⟩
      · rw [f5]
        intro x hx
        rw [List.mem_flatMap] at hx
        obtain ⟨l, _, hx⟩ := hx
        rw [List.mem_map] at hx
        obtain ⟨a, ha, rfl⟩ := hx
        rw [List.mem_range'_1] at ha
        exact ⟨by omega, by omega⟩
      · intro p hp1 hp
        obtain ⟨k1, k2, k3⟩ := hgot p hp1 hp
        rw [f2.pc, f5, flat_filter _ hp1 hp]
        refine ⟨.inr ⟨by rw [k1.rd, f3], k1.pc, by rw [k1.rd]; exact k1.ins, ?_, L, changesLine L.length :: dataLines L, [],
          ?_, ?_, ?_, ?_, ?_, ?_⟩, k2⟩
        · intro _ hwt
          simp only [waiting, Bool.or_eq_false_iff, decide_eq_false_iff_not, k1.chg] at hwt
          omega
        · rw [k1.down, List.nil_append, List.append_nil]
        · exact .inl ⟨k1.chg, k1.rcv, rfl⟩
        · rw [k1.rd]; exact c2
        · rw [k1.rd]
          intro k v hU
          rcases hall k v hU with hk | hk | ⟨_, hk⟩
          · exact .inl hk
          · exact .inr (.inr (c3 k hk))
          · cases hk
        · exact .inl ⟨rfl, k1.name, rfl⟩
        · intro hn; exact absurd k1.name hn
  · have hx := mas_go_collect h1.lt h3 hg
    cases hwt : waiting (g.proc 0) with
    | true =>
      rw [hwt, if_pos rfl] at hx
      refine ⟨_, hx, inv_mas_local h hout ⟨h.mas.rd, h.mas.name, .inr ⟨h1.congr rfl rfl, h2, .inr ⟨lid, h3, h4, h5, ?_⟩⟩⟩ ?_ ?_⟩
      · intro _ hf
        have : waiting { g.proc 0 with loop := true, exit := false } = waiting (g.proc 0) := rfl
        rw [this, hwt] at hf
        cases hf
      · show ∀ x ∈ (g.proc 0).out, _
        rw [hout]; simp
      · intro p hp1 hp
        show Link _ _ _ _ _ _ _ (eff g 0 p ++ ((g.proc 0).out.filter _).map _) _ _
        rw [hout]
        simp only [List.filter_nil, List.map_nil, List.append_nil]
        exact h.link p hp1 hp
    | false =>
      rw [hwt, if_neg (by simp)] at hx
      refine ⟨_, hx, inv_mas_local h hout ⟨h.mas.rd, h.mas.name, .inr ⟨h1.congr rfl rfl, h2,
        .inl ⟨lid + 1, rfl, by omega, h5, rfl⟩⟩⟩ ?_ ?_⟩
      · show ∀ x ∈ (g.proc 0).out, _
        rw [hout]; simp
      · intro p hp1 hp
        show Link _ _ _ _ _ _ _ (eff g 0 p ++ ((g.proc 0).out.filter _).map _) _ (stage (.ask (lid + 1)) p)
        rw [hout]
        simp only [List.filter_nil, List.map_nil, List.append_nil]
        have hk := h.link p hp1 hp
        rw [h3] at hk
        simp only [stage] at hk ⊢
        by_cases hpl : p < lid
        · rw [if_pos hpl] at hk
          rw [if_pos (by omega)]
          exact hk
        · rw [if_neg hpl] at hk
          by_cases hpe : p = lid
          · subst hpe
            rw [if_pos rfl] at hk
            rw [if_pos (by omega)]
            rcases hk with ⟨_, _, k1, k2⟩ | ⟨k1, rem, k2, k3, k4⟩
            · simp only [waiting, Bool.or_eq_false_iff, decide_eq_false_iff_not, k1] at hwt
              omega
            · obtain ⟨e1, e2⟩ := k2.done hwt
              subst e2
              exact ⟨k1, e1, k4⟩
          · rw [if_neg hpe] at hk
            rw [if_neg (by omega)]
            exact hk

/-- A process other than 0 handles a line. -/
theorem inv_cli_handle (hw : w.OK) {g : Sys} (h : Inv w g) {p : Nat} (hp1 : 1 ≤ p) (hp : p < w.n)
    {l : Bytes} {ls : List Bytes} (hc : g.chan 0 p = l :: ls) :
    ∃ P, gotCmd (g.proc p) 0 l = some P ∧ Inv w ⟨upd1 g.proc p P, upd2 g.chan 0 p ls⟩ := by
  have hk := h.link p hp1 hp
  have he : eff g 0 p = l :: (ls ++ (((g.proc 0).out.filter (·.1 = p)).map (·.2))) := by
    unfold eff
    rw [hc]
    rfl
  rw [he] at hk
  obtain ⟨P, g1, g2, g3⟩ := cli_handle hw (by
    intro hs
    rcases h.mas.at_ with h1 | ⟨h1, _⟩
    · rw [h1.pc] at hs; cases hs
    · exact h1.lt) hk
  refine ⟨P, g1, ?_⟩
  refine h.cli hp1 (upd1_ne _ _ (by omega)) (fun q hq => upd1_ne _ _ hq) (fun a b h1 _ => upd2_ne _ _ h1) ?_ ?_
  · show ∀ x ∈ (upd1 g.proc p P p).out, x.1 = 0
    rw [upd1_same, g3]
    exact h.dest p hp1 hp
  · have e1 : eff ⟨upd1 g.proc p P, upd2 g.chan 0 p ls⟩ 0 p = ls ++ (((g.proc 0).out.filter (·.1 = p)).map (·.2)) := by
      unfold eff
      show upd2 g.chan 0 p ls 0 p ++ (((upd1 g.proc p P 0).out).filter _).map _ = _
      rw [upd1_ne _ _ (show 0 ≠ p by omega), upd2_same]
    have e2 : eff ⟨upd1 g.proc p P, upd2 g.chan 0 p ls⟩ p 0 = eff g p 0 := by
      unfold eff
      show upd2 g.chan 0 p ls p 0 ++ (((upd1 g.proc p P p).out).filter _).map _ = _
      rw [upd1_same, g3, upd2_ne _ _ (by omega)]
    rw [e1, e2]
    show Link _ _ _ _ _ _ (upd1 g.proc p P p) _ _ _
    rw [upd1_same]
    exact g2

/-- Process 0 handles a line. -/
theorem inv_mas_handle (hw : w.OK) {g : Sys} (h : Inv w g) {q : Nat} (hq1 : 1 ≤ q) (hq : q < w.n)
    {l : Bytes} {ls : List Bytes} (hc : g.chan q 0 = l :: ls) :
    ∃ P, gotCmd (g.proc 0) q l = some P ∧ Inv w ⟨upd1 g.proc 0 P, upd2 g.chan q 0 ls⟩ := by
  have hk := h.link q hq1 hq
  have he : eff g q 0 = l :: (ls ++ (((g.proc q).out.filter (·.1 = 0)).map (·.2))) := by
    unfold eff
    rw [hc]
    rfl
  have hst : stage (g.proc 0).pc q = .told := by
    cases hs : stage (g.proc 0).pc q with
    | told => rfl
    | untold => rw [hs, he] at hk; cases hk.2
    | got => rw [hs, he] at hk; cases hk.2.1
  rw [hst, he] at hk
  rcases hk with ⟨_, hk, _⟩ | ⟨hk, rem, k2, k3, k4⟩
  · cases hk
  · rcases h.mas.at_ with h1 | ⟨h1, h2, ⟨lid, h3, h4, h5, h6⟩ | ⟨lid, h3, h4, h5, h6⟩⟩
    · rw [h1.pc] at hst; cases hst
    · rw [h3] at hst
      simp only [stage] at hst
      split at hst <;> cases hst
    · have hql : q = lid := by
        rw [h3] at hst
        simp only [stage] at hst
        split at hst
        · cases hst
        · split at hst
          · assumption
          · cases hst
      subst hql
      obtain ⟨M, rem', g1, g2, g3, g4, g5, g6, g7, g8, g9, g10, g11, g12⟩ := feed_spec (lid := q) hw h1 k2 k3
      refine ⟨M, g1, ?_⟩
      have e0 : (⟨upd1 g.proc 0 M, upd2 g.chan q 0 ls⟩ : Sys).proc 0 = M := upd1_same g.proc 0 M
      have eq : ∀ a, 1 ≤ a → (⟨upd1 g.proc 0 M, upd2 g.chan q 0 ls⟩ : Sys).proc a = g.proc a :=
        fun a ha => upd1_ne _ _ (by omega)
      have hm : Mas w M := by
        refine ⟨by rw [g8]; exact h.mas.rd, g12.trans h.mas.name, .inr ?_⟩
        rw [g8]
        exact ⟨g2, h2.mono g5 (by simp), .inr ⟨q, g9.trans h3, h4, h5, fun _ => g7⟩⟩
      refine ⟨by rw [e0]; exact hm, by rw [e0, g11]; exact h.dest0, fun p h1 h2 => by rw [eq p h1]; exact h.dest p h1 h2, ?_, ?_, ?_⟩
      · show upd2 _ _ _ _ 0 0 = []
        rw [upd2_ne _ _ (by omega)]; exact h.self
      · intro a b ha hb
        show upd2 _ _ _ _ a b = []
        rw [upd2_ne _ _ (by omega)]; exact h.cross a b ha hb
      · intro p hp1 hp
        have f1 : eff ⟨upd1 g.proc 0 M, upd2 g.chan q 0 ls⟩ 0 p = eff g 0 p := by
          unfold eff
          rw [e0, g11]
          show upd2 _ _ _ _ 0 p ++ _ = _
          rw [upd2_ne _ _ (by omega)]
        rw [e0, eq p hp1, f1, g8, g9]
        by_cases hpq : p = q
        · subst hpq
          have f2 : eff ⟨upd1 g.proc 0 M, upd2 g.chan p 0 ls⟩ p 0 = ls ++ (((g.proc p).out.filter (·.1 = 0)).map (·.2)) := by
            unfold eff
            rw [eq p hp1]
            show upd2 _ _ _ _ p 0 ++ _ = _
            rw [upd2_same]
          rw [f2, hst]
          exact .inr ⟨hk, rem', g3, fun x hx => k3 x (g4 x hx), k4.mono g5 g6⟩
        · have f2 : eff ⟨upd1 g.proc 0 M, upd2 g.chan q 0 ls⟩ p 0 = eff g p 0 := by
            unfold eff
            rw [eq p hp1]
            show upd2 _ _ _ _ p 0 ++ _ = _
            rw [upd2_ne _ _ (by omega)]
          rw [f2]
          refine ((h.link p hp1 hp).mono g5).counters ?_
          rw [h3]
          simp only [stage]
          split
          · simp
          · simp

/-- Every step keeps the invariant, none fails. -/
theorem act_inv (hw : w.OK) {g : Sys} (h : Inv w g) {a : Act} {r} (ha : act w.cfg g a = some r) :
    ∃ g', r = some g' ∧ Inv w g' := by
  cases a with
  | enter p =>
    simp only [act] at ha
    split at ha
    · rename_i hc
      rw [Option.map_eq_some_iff] at ha
      obtain ⟨x, hx, rfl⟩ := ha
      by_cases hp0 : p = 0
      · subst hp0
        obtain ⟨M, rfl, hM⟩ := mas_enter hw h hc.2 hx
        exact ⟨_, rfl, hM⟩
      · have hp1 : 1 ≤ p := by omega
        obtain ⟨P', rfl, h2, h3⟩ := cli_enter hw hc.1 hp1 (h.link p hp1 hc.1) hx
        refine ⟨_, rfl, inv_cli_local h hp1 hc.2 ?_ ?_⟩
        · rw [h3, hc.2]; simp
        · rw [h3, hc.2]; simpa using h2
    · cases ha
  | write p =>
    simp only [act] at ha
    split at ha
    · rename_i hc
      cases ho : (g.proc p).out with
      | nil => rw [ho] at ha; cases ha
      | cons x o =>
        obtain ⟨q, l⟩ := x
        rw [ho] at ha
        injection ha with ha
        exact ⟨_, ha.symm, inv_write h hc ho⟩
    · cases ha
  | handle p q =>
    simp only [act] at ha
    split at ha
    · rename_i hc
      cases hch : g.chan q p with
      | nil => rw [hch] at ha; cases ha
      | cons l ls =>
        rw [hch] at ha
        injection ha with ha
        by_cases hp0 : p = 0
        · subst hp0
          by_cases hq0 : q = 0
          · subst hq0
            rw [h.self] at hch
            cases hch
          · obtain ⟨P, h1, h2⟩ := inv_mas_handle hw h (by omega) hc.2.1 hch
            rw [h1] at ha
            exact ⟨_, ha.symm, h2⟩
        · by_cases hq0 : q = 0
          · subst hq0
            obtain ⟨P, h1, h2⟩ := inv_cli_handle hw h (by omega) hc.1 hch
            rw [h1] at ha
            exact ⟨_, ha.symm, h2⟩
          · rw [h.cross q p (by omega) (by omega)] at hch
            cases hch
    · cases ha
  | go p =>
    simp only [act] at ha
    split at ha
    · rename_i hc
      rw [Option.map_eq_some_iff] at ha
      obtain ⟨x, hx, rfl⟩ := ha
      by_cases hp0 : p = 0
      · subst hp0
        obtain ⟨M, rfl, hM⟩ := mas_go hw h hc.2 hx
        exact ⟨_, rfl, hM⟩
      · have hp1 : 1 ≤ p := by omega
        obtain ⟨P', rfl, h2, h3⟩ := cli_go hw hc.2 (h.link p hp1 hc.1) hx
        exact ⟨_, rfl, inv_cli_local h hp1 hc.2 h3 h2⟩
    · cases ha

theorem inv_init : Inv w init := by
  have hidle : Idle w 0 proc0 := ⟨rfl, rfl, fun i => kvsNew_clean⟩
  refine ⟨⟨Nat.zero_le _, rfl, .inl hidle⟩, by simp [init, proc0], by simp [init, proc0], rfl, fun _ _ _ _ => rfl, ?_⟩
  intro p _ _
  exact ⟨.inl ⟨rfl, .inl hidle, .inl ⟨rfl, rfl, rfl⟩⟩, rfl⟩

theorem reach_inv (hw : w.OK) {g : Sys} (h : Reach w.cfg g) : Inv w g := by
  induction h with
  | init => exact inv_init
  | step _ hs ih =>
    obtain ⟨a, ha⟩ := hs
    obtain ⟨g', h1, h2⟩ := act_inv hw ih ha
    injection h1 with h1
    rw [h1]
    exact h2

end Laik.Ks
