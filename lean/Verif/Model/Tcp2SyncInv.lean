import Verif.Model.Tcp2SyncStore
/-!
# Invariant of synchronizations over the TCP2 backend
-/

namespace Laik.Ks
open Laik

/-- A program in which processes only set keys to strings: number of processes,
names of stores, synchronizations, sort function. -/
structure Prg where
  n : Nat
  nm : Nat → Bytes
  rs : List SRound
  q : List KEnt → List KEnt

/-- The program for the model. -/
def Prg.cfg (w : Prg) : Cfg :=
  ⟨w.n, w.nm, w.rs.map fun r => ⟨r.store, fun p => (r.upd p).map fun x => .sets x.1 x.2⟩, w.q⟩

/-- Requirements: names, keys and strings can be sent, and in every round, the
processes agree on the string last set for a key. -/
structure Prg.OK (w : Prg) : Prop where
  npos : 0 < w.n
  sort : IsQsort w.q
  name : ∀ r ∈ w.rs, NameOK (w.nm r.store)
  pair : ∀ r ∈ w.rs, ∀ p < w.n, ∀ x ∈ r.upd p, PairOK x.1 x.2
  agree : ∀ r ∈ w.rs, ∀ p < w.n, ∀ p' < w.n, ∀ k v v', lastOf (r.upd p) k = some v → lastOf (r.upd p') k = some v' → v = v'

variable {w : Prg}

def Prg.rnd (w : Prg) (r : Nat) : SRound := w.rs.getD r ⟨0, fun _ => []⟩
def Prg.sid (w : Prg) (r : Nat) : Nat := (w.rnd r).store
def Prg.name (w : Prg) (r : Nat) : Bytes := w.nm (w.sid r)
def Prg.val (w : Prg) (r i : Nat) : Bytes → Option Bytes := valueAfter w.n (w.rs.take r) i
def Prg.U (w : Prg) (r : Nat) (k v : Bytes) : Prop := ∃ p < w.n, lastOf ((w.rnd r).upd p) k = some v

theorem rnd_mem {r : Nat} (h : r < w.rs.length) : w.rnd r ∈ w.rs := by
  unfold Prg.rnd
  rw [List.getD_eq_getElem?_getD, List.getElem?_eq_getElem h]
  exact List.getElem_mem h

theorem rnd_cfg {r : Nat} (h : r < w.rs.length) :
    w.cfg.rounds[r]? = some ⟨w.sid r, fun p => ((w.rnd r).upd p).map fun x => .sets x.1 x.2⟩ := by
  unfold Prg.cfg Prg.sid Prg.rnd
  simp [List.getD_eq_getElem?_getD, List.getElem?_eq_getElem h]

theorem rnd_cfg_none {r : Nat} (h : w.rs.length ≤ r) : w.cfg.rounds[r]? = none := by
  unfold Prg.cfg
  simp [h]

theorem lastOf_mem {h : List (Bytes × Bytes)} {k v : Bytes} (hl : lastOf h k = some v) : (k, v) ∈ h := by
  unfold lastOf at hl
  rw [Option.map_eq_some_iff] at hl
  obtain ⟨x, hx, rfl⟩ := hl
  have h1 := List.mem_of_find?_eq_some hx
  have h2 := List.find?_some hx
  simp only [decide_eq_true_eq] at h2
  subst h2
  rw [List.mem_reverse] at h1
  exact h1

theorem rnd_upd_out {r : Nat} (h : w.rs.length ≤ r) (p : Nat) : (w.rnd r).upd p = [] := by
  unfold Prg.rnd
  rw [List.getD_eq_getElem?_getD, List.getElem?_eq_none h]
  rfl

theorem U_pair (hw : w.OK) {r : Nat} {k v : Bytes} (h : w.U r k v) : PairOK k v := by
  obtain ⟨p, hp, h⟩ := h
  by_cases hr : r < w.rs.length
  · exact hw.pair _ (rnd_mem hr) p hp _ (lastOf_mem h)
  · rw [rnd_upd_out (by omega)] at h; cases h

theorem U_fun (hw : w.OK) {r : Nat} {k v v' : Bytes} (h : w.U r k v) (h' : w.U r k v') : v = v' := by
  obtain ⟨p, hp, h⟩ := h
  obtain ⟨p', hp', h'⟩ := h'
  by_cases hr : r < w.rs.length
  · exact hw.agree _ (rnd_mem hr) p hp p' hp' k v v' h h'
  · rw [rnd_upd_out (by omega)] at h; cases h

theorem setIn_some {n : Nat} {r : SRound} {k v : Bytes} (h : setIn n r k = some v) :
    ∃ p < n, lastOf (r.upd p) k = some v := by
  unfold setIn at h
  rw [List.findSome?_eq_some_iff] at h
  obtain ⟨l1, a, l2, h1, h2, -⟩ := h
  refine ⟨a, ?_, h2⟩
  rw [← List.mem_range, h1]
  simp

theorem setIn_none {n : Nat} {r : SRound} {k : Bytes} (h : setIn n r k = none) :
    ∀ p < n, lastOf (r.upd p) k = none := by
  intro p hp
  unfold setIn at h
  rw [List.findSome?_eq_none_iff] at h
  exact h p (List.mem_range.2 hp)

theorem val_succ {r : Nat} (h : r < w.rs.length) (i : Nat) (k : Bytes) :
    w.val (r + 1) i k = if w.sid r = i then
      (match setIn w.n (w.rnd r) k with | some v => some (v ++ [0]) | none => w.val r i k) else w.val r i k := by
  unfold Prg.val valueAfter Prg.sid
  rw [List.take_succ, List.getElem?_eq_getElem h, Option.toList_some, List.foldl_append]
  have : w.rnd r = w.rs[r] := by
    unfold Prg.rnd
    rw [List.getD_eq_getElem?_getD, List.getElem?_eq_getElem h]
    rfl
  rw [this]
  rfl

theorem val_other {r : Nat} (h : r < w.rs.length) {i : Nat} (hi : i ≠ w.sid r) : w.val (r + 1) i = w.val r i := by
  funext k
  rw [val_succ h, if_neg (fun hh => hi hh.symm)]

theorem val_U (hw : w.OK) {r : Nat} (h : r < w.rs.length) {k v : Bytes} (hU : w.U r k v) :
    w.val (r + 1) (w.sid r) k = some (v ++ [0]) := by
  rw [val_succ h, if_pos rfl]
  cases hs : setIn w.n (w.rnd r) k with
  | none =>
    obtain ⟨p, hp, h1⟩ := hU
    rw [setIn_none hs p hp] at h1
    cases h1
  | some v' => rw [U_fun hw hU (setIn_some hs)]

theorem val_noU {r : Nat} (h : r < w.rs.length) {k : Bytes} (hU : ∀ v, ¬ w.U r k v) :
    w.val (r + 1) (w.sid r) k = w.val r (w.sid r) k := by
  rw [val_succ h, if_pos rfl]
  cases hs : setIn w.n (w.rnd r) k with
  | none => rfl
  | some v' => exact absurd (setIn_some hs) (hU v')

theorem pair_str {k v : Bytes} (h : PairOK k v) : 0 ∉ v := fun h0 => (h.vchr 0 h0).1 rfl

theorem val_str (hw : w.OK) : ∀ (r i : Nat) (k old : Bytes), w.val r i k = some old → IsStr old := by
  intro r i k
  induction r with
  | zero => intro old h; simp [Prg.val, valueAfter] at h
  | succ r ih =>
    intro old h
    by_cases hr : r < w.rs.length
    · rw [val_succ hr] at h
      split at h
      · cases hs : setIn w.n (w.rnd r) k with
        | none => rw [hs] at h; exact ih old h
        | some v =>
          rw [hs] at h
          simp only [Option.some.injEq] at h
          exact ⟨v, h.symm, pair_str (U_pair hw (setIn_some hs))⟩
      · exact ih old h
    · refine ih old ?_
      unfold Prg.val at h ⊢
      rw [List.take_of_length_le (by omega)] at h ⊢
      exact h

/-! ### The invariant -/

/-- In the synchronization of round `r`. -/
structure InS (w : Prg) (r : Nat) (P : Proc) : Prop where
  lt : r < w.rs.length
  kvs : P.kvs = some (w.sid r)
  part : Part (w.val r (w.sid r)) (w.U r) (P.st (w.sid r))
  other : ∀ i, i ≠ w.sid r → Clean (w.val r i) (P.st i)

/-- Between synchronizations. -/
structure Idle (w : Prg) (r : Nat) (P : Proc) : Prop where
  pc : P.pc = .idle
  kvs : P.kvs = none
  clean : ∀ i, Clean (w.val r i) (P.st i)

def flagOf (w : Prg) (r : Nat) (P : Proc) (k : Bytes) : Prop := entFlag (P.st (w.sid r)).ent k = true

/-- The changes of process `p` are marked in a store, or in `rem`. -/
def Own (w : Prg) (r p : Nat) (fl : Bytes → Prop) (rem : List (Bytes × Bytes)) : Prop :=
  ∀ k v, lastOf ((w.rnd r).upd p) k = some v →
    w.val r (w.sid r) k = some (v ++ [0]) ∨ fl k ∨ ∃ v', (k, v') ∈ rem

/-- The same for all changes. -/
def All (w : Prg) (r : Nat) (fl : Bytes → Prop) (rem : List (Bytes × Bytes)) : Prop :=
  ∀ k v, w.U r k v → w.val r (w.sid r) k = some (v ++ [0]) ∨ fl k ∨ ∃ v', (k, v') ∈ rem

def dataLines (rem : List (Bytes × Bytes)) : List Bytes := rem.map fun x => dataLine x.1 x.2

/-- Lines expected, with `rem` the changes still to come. -/
def Feed (chg : Int) (rcv : Nat) (lines : List Bytes) (rem : List (Bytes × Bytes)) : Prop :=
  (chg = -1 ∧ rcv = 0 ∧ lines = changesLine rem.length :: dataLines rem) ∨
  (chg = ((rcv + rem.length : Nat) : Int) ∧ lines = dataLines rem)

/-- Permission to send in round `R`: given or not. -/
def Perm (w : Prg) (R : Nat) (tld : Bool) (name : Option Bytes) (down : List Bytes) : Prop :=
  (tld = false ∧ name = none ∧ down = []) ∨
  (tld = true ∧ name = none ∧ down = [allowLine (w.name R)]) ∨
  (tld = true ∧ name = some (w.name R) ∧ down = [])

/-- Process `p` did not send its changes of round `R`. -/
structure NotSent (w : Prg) (R p : Nat) (C : Proc) (tld : Bool) (down : List Bytes) : Prop where
  rd : C.rd = R
  at_ : Idle w R C ∨ (C.pc = .allow ∧ InS w R C ∧ Own w R p (flagOf w R C) [] ∧
    (C.loop = true → C.name ≠ none → C.exit = true))
  perm : Perm w R tld C.name down

/-- It sent its changes of round `R`, and waits. -/
structure Sent (w : Prg) (R : Nat) (C : Proc) (down : List Bytes) : Prop where
  rd : C.rd = R
  pc : C.pc = .wait
  ins : InS w R C
  name : C.name = none
  chg : C.chg = -1
  rcv : C.rcv = 0
  down : down = []

/-- It receives all changes of the round before `R`. -/
structure Fin (w : Prg) (R : Nat) (C : Proc) (tld : Bool) (down : List Bytes) : Prop where
  rd : C.rd + 1 = R
  pc : C.pc = .wait
  ins : InS w C.rd C
  exit : C.loop = true → waiting C = false → C.exit = true
  feed : ∃ rem lines tail, down = lines ++ tail ∧ Feed C.chg C.rcv lines rem ∧ (∀ x ∈ rem, w.U C.rd x.1 x.2) ∧
    All w C.rd (flagOf w C.rd C) rem ∧ Perm w R tld C.name tail ∧ (C.name ≠ none → lines = [])

/-- State of the collection from a process, seen by process 0. -/
inductive Stg
  | untold
  | told
  | got

def stage (pc : PC) (p : Nat) : Stg :=
  match pc with
  | .ask lid => if p < lid then .got else .untold
  | .collect lid => if p < lid then .got else if p = lid then .told else .untold
  | _ => .untold

/-- Relation of process 0 (in round `R`, with marks `fl`) to process `p`. -/
def Link (w : Prg) (R : Nat) (chg : Int) (rcv : Nat) (fl : Bytes → Prop) (p : Nat) (C : Proc) (down up : List Bytes) :
    Stg → Prop
  | .untold => (NotSent w R p C false down ∨ Fin w R C false down) ∧ up = []
  | .told => ((NotSent w R p C true down ∨ Fin w R C true down) ∧ up = [] ∧ chg = -1 ∧ rcv = 0) ∨
      (Sent w R C down ∧ ∃ rem, Feed chg rcv up rem ∧ (∀ x ∈ rem, w.U R x.1 x.2) ∧ Own w R p fl rem)
  | .got => Sent w R C down ∧ up = [] ∧ Own w R p fl []

/-- Process 0. -/
structure Mas (w : Prg) (M : Proc) : Prop where
  rd : M.rd ≤ w.rs.length
  name : M.name = none
  at_ : Idle w M.rd M ∨ (InS w M.rd M ∧ Own w M.rd 0 (flagOf w M.rd M) [] ∧
    ((∃ lid, M.pc = .ask lid ∧ 1 ≤ lid ∧ lid ≤ w.n ∧ M.loop = false) ∨
     (∃ lid, M.pc = .collect lid ∧ 1 ≤ lid ∧ lid < w.n ∧ (M.loop = true → waiting M = false → M.exit = true))))

/-- Lines on the way from `p` to `q`. -/
def eff (g : Sys) (p q : Nat) : List Bytes := g.chan p q ++ ((g.proc p).out.filter (·.1 = q)).map (·.2)

structure Inv (w : Prg) (g : Sys) : Prop where
  mas : Mas w (g.proc 0)
  dest0 : ∀ x ∈ (g.proc 0).out, 1 ≤ x.1 ∧ x.1 < w.n
  dest : ∀ p, 1 ≤ p → p < w.n → ∀ x ∈ (g.proc p).out, x.1 = 0
  self : g.chan 0 0 = []
  cross : ∀ p q, 1 ≤ p → 1 ≤ q → g.chan p q = []
  link : ∀ p, 1 ≤ p → p < w.n → Link w (g.proc 0).rd (g.proc 0).chg (g.proc 0).rcv (flagOf w (g.proc 0).rd (g.proc 0)) p
    (g.proc p) (eff g 0 p) (eff g p 0) (stage (g.proc 0).pc p)

end Laik.Ks
