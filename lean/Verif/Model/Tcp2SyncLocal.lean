import Verif.Model.Tcp2SyncInv
/-!
# Steps of a process in a synchronization over the TCP2 backend
-/

namespace Laik.Ks
open Laik

variable {w : Prg}

theorem InS.congr {r : Nat} {P P' : Proc} (h : InS w r P) (h1 : P'.kvs = P.kvs) (h2 : P'.st = P.st) : InS w r P' :=
  ⟨h.lt, h1.trans h.kvs, by rw [h2]; exact h.part, by rw [h2]; exact h.other⟩

theorem Idle.congr {r : Nat} {P P' : Proc} (h : Idle w r P) (h0 : P'.pc = P.pc) (h1 : P'.kvs = P.kvs) (h2 : P'.st = P.st) :
    Idle w r P' :=
  ⟨h0.trans h.pc, h1.trans h.kvs, by rw [h2]; exact h.clean⟩

theorem flagOf_congr {r : Nat} {P P' : Proc} (h : P'.st = P.st) : flagOf w r P' = flagOf w r P := by
  unfold flagOf
  rw [h]

theorem Own.mono {r p : Nat} {fl fl' : Bytes → Prop} {rem rem' : List (Bytes × Bytes)} (h : Own w r p fl rem)
    (h1 : ∀ k, fl k → fl' k) (h2 : ∀ x ∈ rem, x ∈ rem' ∨ fl' x.1) : Own w r p fl' rem' := by
  intro k v hl
  rcases h k v hl with h | h | ⟨v', h⟩
  · exact .inl h
  · exact .inr (.inl (h1 k h))
  · rcases h2 _ h with h | h
    · exact .inr (.inr ⟨v', h⟩)
    · exact .inr (.inl h)

theorem All.mono {r : Nat} {fl fl' : Bytes → Prop} {rem rem' : List (Bytes × Bytes)} (h : All w r fl rem)
    (h1 : ∀ k, fl k → fl' k) (h2 : ∀ x ∈ rem, x ∈ rem' ∨ fl' x.1) : All w r fl' rem' := by
  intro k v hl
  rcases h k v hl with h | h | ⟨v', h⟩
  · exact .inl h
  · exact .inr (.inl (h1 k h))
  · rcases h2 _ h with h | h
    · exact .inr (.inr ⟨v', h⟩)
    · exact .inr (.inl h)

/-- Start of a synchronization. -/
theorem enter_spec (hw : w.OK) {p r : Nat} {P : Proc} (hI : Idle w r P) (hrd : P.rd = r) (hr : r < w.rs.length)
    (hn : P.name = none ∨ P.name = some (w.name r)) (hp : p < w.n) :
    ∃ P', enter w.cfg p P = some (some P') ∧ InS w r P' ∧ Own w r p (flagOf w r P') [] ∧ P'.rd = r ∧
      P'.name = P.name ∧ P'.out = P.out ∧ P'.loop = false ∧ P'.pc = (if p = 0 then .ask 1 else .allow) := by
  obtain ⟨s', h1, h2, h3⟩ := Clean.part (val_str hw r (w.sid r)) (hI.clean (w.sid r))
    (h := (w.rnd r).upd p) (fun x hx => pair_str (hw.pair _ (rnd_mem hr) p hp x hx))
    (U := w.U r) (fun k v hl => ⟨p, hp, hl⟩)
  unfold enter
  rw [hrd, rnd_cfg hr]
  simp only [hI.pc, if_true, h1, Option.bind_some]
  rw [if_pos ⟨hI.kvs, hn⟩]
  refine ⟨_, rfl, ⟨hr, rfl, ?_, ?_⟩, ?_, hrd, rfl, rfl, rfl, rfl⟩
  · show Part _ _ (if w.sid r = w.sid r then { s' with inSync := true } else P.st (w.sid r))
    rw [if_pos rfl]
    exact h2
  · intro i hi
    show Clean _ (if i = w.sid r then { s' with inSync := true } else P.st i)
    rw [if_neg hi]
    exact hI.clean i
  · intro k v hl
    rcases h3 k v hl with h | h
    · exact .inl h
    · refine .inr (.inl ?_)
      show entFlag (if w.sid r = w.sid r then { s' with inSync := true } else P.st (w.sid r)).ent k = true
      rw [if_pos rfl]
      exact h

theorem enter_none {p : Nat} {P : Proc} (h : w.rs.length ≤ P.rd ∨ P.pc ≠ .idle) : enter w.cfg p P = none := by
  unfold enter
  rcases h with h | h
  · rw [rnd_cfg_none h]
  · split
    · rfl
    · rw [if_neg h]

/-- End of a synchronization. -/
theorem finish_spec (hw : w.OK) {r : Nat} {P : Proc} (hI : InS w r P) (hrd : P.rd = r) (ha : All w r (flagOf w r P) [])
    (out : List (Nat × Bytes)) :
    ∃ P', finish w.cfg P (w.sid r) out = some P' ∧ Idle w (r + 1) P' ∧ P'.rd = r + 1 ∧ P'.name = P.name ∧ P'.out = out := by
  obtain ⟨s', h1, h2⟩ := hI.part.finish hw.sort (F := w.val (r + 1) (w.sid r))
    (fun k v hU => val_U hw hI.lt hU) (fun k hU => val_noU hI.lt hU) (by
      intro k v hU
      rcases ha k v hU with h | h | ⟨v', h⟩
      · exact .inl h
      · exact .inr h
      · cases h)
  unfold finish
  rw [show w.cfg.q = w.q from rfl, h1]
  refine ⟨_, rfl, ⟨rfl, rfl, ?_⟩, by rw [← hrd], rfl, rfl⟩
  intro i
  show Clean _ (if i = w.sid r then s' else P.st i)
  split
  · rename_i hi; subst hi; exact h2
  · rename_i hi
    rw [val_other hI.lt hi]
    exact hI.other i hi

/-- A line with changes is handled. -/
theorem feed_spec (hw : w.OK) {r lid : Nat} {P : Proc} (hI : InS w r P) {l : Bytes} {lines : List Bytes}
    {rem : List (Bytes × Bytes)} (hf : Feed P.chg P.rcv (l :: lines) rem) (hU : ∀ x ∈ rem, w.U r x.1 x.2) :
    ∃ P' rem', gotCmd P lid l = some P' ∧ InS w r P' ∧ Feed P'.chg P'.rcv lines rem' ∧ (∀ x ∈ rem', x ∈ rem) ∧
      (∀ k, flagOf w r P k → flagOf w r P' k) ∧ (∀ x ∈ rem, x ∈ rem' ∨ flagOf w r P' x.1) ∧
      (waiting P' = false → P'.exit = true) ∧ P'.rd = P.rd ∧ P'.pc = P.pc ∧ P'.loop = P.loop ∧ P'.out = P.out ∧
      P'.name = P.name := by
  rcases hf with ⟨h1, h2, h3⟩ | ⟨h1, h2⟩
  · rw [List.cons.injEq] at h3
    obtain ⟨rfl, rfl⟩ := h3
    refine ⟨_, rem, got_changes rem.length lid P (by rw [hI.kvs]; simp) h1 h2, hI.congr rfl rfl, ?_, fun x h => h,
      fun k h => h, fun x h => .inl h, ?_, rfl, rfl, rfl, rfl, rfl⟩
    · refine .inr ⟨?_, rfl⟩
      show ((rem.length : Nat) : Int) = ((P.rcv + rem.length : Nat) : Int)
      rw [h2, Nat.zero_add]
    · intro hwt
      simp only [waiting, Bool.or_eq_false_iff, decide_eq_false_iff_not, h2] at hwt
      have : rem.length = 0 := by omega
      show (if rem.length = 0 then true else P.exit) = true
      rw [if_pos this]
  · cases rem with
    | nil => cases h2
    | cons x rem =>
      obtain ⟨k, v⟩ := x
      rw [dataLines, List.map_cons, List.cons.injEq] at h2
      obtain ⟨rfl, rfl⟩ := h2
      have hUk : w.U r k v := hU (k, v) (by simp)
      obtain ⟨s', g1, g2, g3⟩ := hI.part.set (fun k v v' => U_fun hw) (fun k v h => pair_str (U_pair hw h))
        (val_str hw r (w.sid r)) hUk
      rw [List.length_cons] at h1
      have hst : (stored P (w.sid r) k s').st (w.sid r) = markUpd s' k := by
        show (if w.sid r = w.sid r then _ else _) = _
        rw [if_pos rfl]
      refine ⟨_, rem, got_data (U_pair hw hUk) lid P hI.kvs (by omega) g1, ⟨hI.lt, hI.kvs, ?_, ?_⟩, ?_,
        fun x h => by simp [h], ?_, ?_, ?_, rfl, rfl, rfl, rfl, rfl⟩
      · rw [hst]; exact g2
      · intro i hi
        show Clean _ (if i = w.sid r then _ else _)
        rw [if_neg hi]
        exact hI.other i hi
      · refine .inr ⟨?_, rfl⟩
        show P.chg = ((P.rcv + 1 + rem.length : Nat) : Int)
        rw [h1]
        congr 1
        omega
      · intro k' hk'
        unfold flagOf at hk' ⊢
        rw [hst, g3]
        split
        · rfl
        · exact hk'
      · intro x hx
        rcases List.mem_cons.1 hx with rfl | hx
        · refine .inr ?_
          unfold flagOf
          rw [hst, g3, if_pos rfl]
        · exact .inl hx
      · intro hwt
        have hc : (stored P (w.sid r) k s').chg = P.chg := rfl
        have hr : (stored P (w.sid r) k s').rcv = P.rcv + 1 := rfl
        simp only [waiting, Bool.or_eq_false_iff, decide_eq_false_iff_not, hc, hr] at hwt
        show (if ((P.rcv + 1 : Nat) : Int) = P.chg then true else P.exit) = true
        rw [if_pos (by omega)]

theorem Feed.done {P : Proc} {lines : List Bytes} {rem : List (Bytes × Bytes)} (h : Feed P.chg P.rcv lines rem)
    (hw : waiting P = false) : lines = [] ∧ rem = [] := by
  simp only [waiting, Bool.or_eq_false_iff, decide_eq_false_iff_not] at hw
  rcases h with ⟨h, _⟩ | ⟨h, h2⟩
  · omega
  · have : rem.length = 0 := by omega
    rw [List.length_eq_zero_iff] at this
    subst this
    exact ⟨h2, rfl⟩

theorem Feed.more {P : Proc} {lines : List Bytes} {rem : List (Bytes × Bytes)} (h : Feed P.chg P.rcv lines rem)
    (hw : waiting P = true) : lines ≠ [] := by
  rintro rfl
  rcases h with ⟨_, _, h⟩ | ⟨h, h2⟩
  · cases h
  · have : rem = [] := by
      cases rem with
      | nil => rfl
      | cons a l => cases h2
    subst this
    simp only [waiting, Bool.or_eq_true, decide_eq_true_eq] at hw
    simp at h
    omega

/-! ### Other processes -/

/-- Same up to fields which do not matter. -/
structure Same (P P' : Proc) : Prop where
  rd : P'.rd = P.rd
  pc : P'.pc = P.pc
  kvs : P'.kvs = P.kvs
  st : P'.st = P.st
  name : P'.name = P.name
  chg : P'.chg = P.chg
  rcv : P'.rcv = P.rcv

theorem Same.waiting {P P' : Proc} (h : Same P P') : waiting P' = waiting P := by
  unfold Ks.waiting
  rw [h.chg, h.rcv]

theorem NotSent.congr {R p : Nat} {P P' : Proc} {tld down} (h : NotSent w R p P tld down) (hs : Same P P')
    (he : P.pc = .allow → (P.loop = true → P.name ≠ none → P.exit = true) → P'.loop = true → P.name ≠ none → P'.exit = true) :
    NotSent w R p P' tld down := by
  refine ⟨hs.rd.trans h.rd, ?_, by rw [hs.name]; exact h.perm⟩
  rcases h.at_ with h1 | ⟨h1, h2, h3, h4⟩
  · exact .inl (h1.congr hs.pc hs.kvs hs.st)
  · refine .inr ⟨hs.pc.trans h1, h2.congr hs.kvs hs.st, by rw [flagOf_congr hs.st]; exact h3, ?_⟩
    rw [hs.name]
    exact he h1 h4

theorem Sent.congr {R : Nat} {P P' : Proc} {down} (h : Sent w R P down) (hs : Same P P') : Sent w R P' down :=
  ⟨hs.rd.trans h.rd, hs.pc.trans h.pc, h.ins.congr hs.kvs hs.st, hs.name.trans h.name, hs.chg.trans h.chg,
    hs.rcv.trans h.rcv, h.down⟩

theorem Fin.congr {R : Nat} {P P' : Proc} {tld down} (h : Fin w R P tld down) (hs : Same P P')
    (he : (P.loop = true → Ks.waiting P = false → P.exit = true) → P'.loop = true → Ks.waiting P = false → P'.exit = true) :
    Fin w R P' tld down := by
  refine ⟨by rw [hs.rd]; exact h.rd, hs.pc.trans h.pc, ?_, by rw [hs.waiting]; exact he h.exit, ?_⟩
  · rw [hs.rd]; exact h.ins.congr hs.kvs hs.st
  · obtain ⟨rem, lines, tail, h1, h2, h3, h4, h5, h6⟩ := h.feed
    refine ⟨rem, lines, tail, h1, by rw [hs.chg, hs.rcv]; exact h2, by rw [hs.rd]; exact h3, ?_,
      by rw [hs.name]; exact h5, by rw [hs.name]; exact h6⟩
    rw [hs.rd, flagOf_congr hs.st]
    exact h4

theorem Link.congr {R chg rcv fl p} {P P' : Proc} {down up s} (h : Link w R chg rcv fl p P down up s) (hs : Same P P')
    (he1 : P.pc = .allow → (P.loop = true → P.name ≠ none → P.exit = true) → P'.loop = true → P.name ≠ none → P'.exit = true)
    (he2 : P.pc = .wait → (P.loop = true → Ks.waiting P = false → P.exit = true) → P'.loop = true → Ks.waiting P = false → P'.exit = true) :
    Link w R chg rcv fl p P' down up s := by
  cases s with
  | untold =>
    obtain ⟨h | h, h'⟩ := h
    · exact ⟨.inl (h.congr hs he1), h'⟩
    · exact ⟨.inr (h.congr hs (he2 h.pc)), h'⟩
  | told =>
    rcases h with ⟨h | h, h'⟩ | ⟨h, h'⟩
    · exact .inl ⟨.inl (h.congr hs he1), h'⟩
    · exact .inl ⟨.inr (h.congr hs (he2 h.pc)), h'⟩
    · exact .inr ⟨h.congr hs, h'⟩
  | got => exact ⟨h.1.congr hs, h.2⟩

theorem Link.mono {R chg rcv fl fl' p} {P : Proc} {down up s} (h : Link w R chg rcv fl p P down up s)
    (hf : ∀ k, fl k → fl' k) : Link w R chg rcv fl' p P down up s := by
  cases s with
  | untold => exact h
  | told =>
    rcases h with h | ⟨h, rem, h1, h2, h3⟩
    · exact .inl h
    · exact .inr ⟨h, rem, h1, h2, h3.mono hf (fun x hx => .inl hx)⟩
  | got => exact ⟨h.1, h.2.1, h.2.2.mono hf (fun x hx => .inl hx)⟩

/-- Only the process asked is concerned by the counters of process 0. -/
theorem Link.counters {R chg rcv chg' rcv' fl p} {P : Proc} {down up s} (h : Link w R chg rcv fl p P down up s)
    (hs : s ≠ .told) : Link w R chg' rcv' fl p P down up s := by
  cases s with
  | untold => exact h
  | told => exact absurd rfl hs
  | got => exact h

end Laik.Ks
