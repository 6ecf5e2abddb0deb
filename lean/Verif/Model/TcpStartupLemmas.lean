import Verif.Model.TcpStartup
import Mathlib.Data.List.Nodup
import Mathlib.Data.List.Perm.Subperm
import Mathlib.Tactic.SplitIfs

/-!
# Startup of the TCP2 backend: invariant

Auxiliary facts for property C72. Every process reads a prefix of one fixed
sequence of commands (`full`); `At` says how a process looks after `k` of them.
-/

namespace Laik.Su

theorem upd_same {α : Type} (f : Nat → α) (i : Nat) (a : α) : upd f i a i = a := by
  simp [upd]

theorem upd_ne {α : Type} (f : Nat → α) {i j : Nat} (a : α) (h : j ≠ i) :
    upd f i a j = f j := by
  simp [upd, h]

theorem idx_inj {l : List Nat} (h : l.Nodup) {i j p : Nat}
    (hi : l[i]? = some p) (hj : l[j]? = some p) : i = j := by
  obtain ⟨h1, e1⟩ := List.getElem?_eq_some_iff.1 hi
  obtain ⟨h2, e2⟩ := List.getElem?_eq_some_iff.1 hj
  exact (List.Nodup.getElem_inj_iff h).1 (e1.trans e2.symm)

theorem send_at {reg : List Nat} (i p : Nat) (h : reg[i]? = some p)
    (m : Msg) (q : Nat → List Msg) : send reg (i + 1) m q p = q p ++ [m] := by
  simp [send, h, upd]

theorem send_other {reg : List Nat} (hn : reg.Nodup) (i p t : Nat) (h : reg[i]? = some p)
    (ht : 1 ≤ t) (hne : t ≠ i + 1)
    (m : Msg) (q : Nat → List Msg) : send reg t m q p = q p := by
  unfold send
  cases hr : reg[t - 1]? with
  | none => rfl
  | some r =>
    refine upd_ne _ _ ?_
    rintro rfl
    have := idx_inj hn h hr
    omega

theorem send_out {reg : List Nat} (p t : Nat) (h : p ∉ reg)
    (m : Msg) (q : Nat → List Msg) : send reg t m q p = q p := by
  unfold send
  cases hr : reg[t - 1]? with
  | none => rfl
  | some r =>
    refine upd_ne _ _ ?_
    rintro rfl
    exact h (List.mem_of_getElem? hr)

theorem sendList_out {reg : List Nat} (p : Nat) (h : p ∉ reg) (f : Nat → Option Msg) :
    ∀ (tos : List Nat) (q : Nat → List Msg), sendList reg f tos q p = q p
  | [], _ => rfl
  | t :: ts, q => by
    have ih := sendList_out p h f ts
    unfold sendList at ih ⊢
    rw [List.foldl_cons, ih]
    cases f t with
    | none => rfl
    | some m => exact send_out p t h m q

theorem sendList_at {reg : List Nat} (hn : reg.Nodup) (i p : Nat) (h : reg[i]? = some p)
    (f : Nat → Option Msg) :
    ∀ (tos : List Nat) (q : Nat → List Msg), tos.Nodup → (∀ t ∈ tos, 1 ≤ t) →
      sendList reg f tos q p = q p ++ if i + 1 ∈ tos then (f (i + 1)).toList else []
  | [], q, _, _ => by simp [sendList]
  | t :: ts, q, hd, h1 => by
    have ih := fun q => sendList_at hn i p h f ts q (List.nodup_cons.1 hd).2
      (fun t ht => h1 t (List.mem_cons_of_mem _ ht))
    unfold sendList at ih ⊢
    rw [List.foldl_cons, ih]
    by_cases ht : t = i + 1
    · subst ht
      have hnot := (List.nodup_cons.1 hd).1
      rw [if_neg hnot, if_pos (List.mem_cons_self ..), List.append_nil]
      cases hf : f (i + 1) with
      | none => simp [sendSome]
      | some m => simp [sendSome, send_at i p h]
    · have e : sendSome reg t (f t) q p = q p := by
        cases f t with
        | none => rfl
        | some m => exact send_other hn i p t h (h1 t (List.mem_cons_self ..)) ht m q
      rw [e]
      have : (i + 1 ∈ t :: ts) ↔ i + 1 ∈ ts := by
        rw [List.mem_cons]
        exact ⟨fun h => h.resolve_left fun e => ht e.symm, Or.inr⟩
      simp only [this]

/-- The LIDs a process with LID `l` hears of, in their order. -/
def ids (N l : Nat) : List Nat := (List.range N).filter (· ≠ l)

theorem bcast_aux {reg : List Nat} (hn : reg.Nodup) (i p : Nat) (h : reg[i]? = some p)
    (g : Nat → Msg) : ∀ (lids : List Nat) (q : Nat → List Msg),
    (lids.foldl (fun q lid => sendList reg (fun t => if lid = t then none else some (g lid))
      (List.range' 1 reg.length) q) q) p
      = q p ++ (lids.filter (· ≠ i + 1)).map g
  | [], q => by simp
  | lid :: lids, q => by
    rw [List.foldl_cons, bcast_aux hn i p h g lids,
      sendList_at hn i p h _ _ _ List.nodup_range' (by intro t ht; simp at ht; omega)]
    have hlt := (List.getElem?_eq_some_iff.1 h).1
    have hm : i + 1 ∈ List.range' 1 reg.length := by simp; omega
    rw [if_pos hm]
    by_cases e : lid = i + 1
    · subst e; simp
    · simp [e]

theorem bcast_out {reg : List Nat} (p : Nat) (h : p ∉ reg)
    (g : Nat → Msg) : ∀ (lids : List Nat) (q : Nat → List Msg),
    (lids.foldl (fun q lid => sendList reg (fun t => if lid = t then none else some (g lid))
      (List.range' 1 reg.length) q) q) p = q p
  | [], q => rfl
  | lid :: lids, q => by
    rw [List.foldl_cons, bcast_out p h g lids, sendList_out p h]

theorem mem_ids {N l q : Nat} : q ∈ ids N l ↔ q < N ∧ q ≠ l := by
  simp [ids]

theorem ids_nodup (N l : Nat) : (ids N l).Nodup := List.nodup_range.filter _

theorem ids_length {N l : Nat} (h : l < N) : (ids N l).length = N - 1 := by
  have h1 : (l :: ids N l).Perm (List.range N) := by
    refine (List.perm_ext_iff_of_nodup ?_ List.nodup_range).2 ?_
    · exact List.nodup_cons.2 ⟨fun h => (mem_ids.1 h).2 rfl, ids_nodup N l⟩
    · intro a
      rw [List.mem_cons, mem_ids, List.mem_range]
      omega
  have := h1.length_eq
  simp at this
  omega

/-- The common table as a total function. -/
def ent (T : Nat → Option Who) (q : Nat) : Who := known T q

/-- All commands a process with LID `l` gets during startup. -/
def full (N : Nat) (T : Nat → Option Who) (l : Nat) : List Msg :=
  .id l (ent T l) :: ((ids N l).map (fun q => Msg.newid q (ent T q)) ++ [.getready, .phase])

theorem full_length {N l : Nat} (h : l < N) (T : Nat → Option Who) :
    (full N T l).length = N + 2 := by
  simp [full, ids_length h]
  omega

/-- How many of them are sent in a stage of the master. -/
def avail (N stage : Nat) : Nat :=
  if stage = 0 then 1 else if stage = 1 then N + 1 else N + 2

/-- A process after `k` commands. -/
structure At (N : Nat) (T : Nat → Option Who) (l : Nat) (w : Who) (k : Nat) (c : Proc) :
    Prop where
  zero : k = 0 → c = newProc w
  mylid : 1 ≤ k → c.mylid = some l
  me : 1 ≤ k → some c.me = T l
  peers : c.peers = min (k - 1) (N - 1)
  mystate : 1 ≤ k → c.mystate = if k ≤ N then .regAccepted else .ready
  phase : c.phase = decide (k = N + 2)
  table : ∀ q, 1 ≤ k → c.table q = if q = l ∨ q ∈ (ids N l).take (k - 1) then T q else none
  st : ∀ q, 1 ≤ k → c.st q =
    if q = l then (if k ≤ N then .regAccepted else .ready)
    else if q ∈ (ids N l).take (k - 1) then .noConnect
    else if q = 0 then .ready else .invalid
  size : 1 ≤ k → l < c.size ∧ c.size ≤ N ∧ ∀ q ∈ (ids N l).take (k - 1), q < c.size

theorem At_new (N : Nat) (T : Nat → Option Who) (l : Nat) (w : Who) :
    At N T l w 0 (newProc w) where
  zero := fun _ => rfl
  mylid := by omega
  me := by omega
  peers := by simp [newProc]
  mystate := by omega
  phase := by simp [newProc]
  table := by intro q h; omega
  st := by intro q h; omega
  size := by omega

theorem take_succ_mem {α : Type} {l : List α} {k : Nat} {a : α} (h : l[k]? = some a) (q : α) :
    q ∈ l.take (k + 1) ↔ q ∈ l.take k ∨ q = a := by
  rw [List.take_add_one, h]
  simp

theorem not_mem_take {l : List Nat} (hn : l.Nodup) {k a : Nat} (h : l[k]? = some a) :
    a ∉ l.take k := by
  intro hm
  obtain ⟨j, hj, e⟩ := List.getElem_of_mem hm
  have hj' : j < k := by simp at hj; omega
  have : l[j]? = some a := by
    rw [List.getElem_take] at e
    rw [← e]; simp
  have := idx_inj hn this h
  omega

/-- The next command of the sequence is taken without failing. -/
theorem At_step {N : Nat} (hN : 2 ≤ N) (hmax : N ≤ maxPeers) {T : Nat → Option Who}
    {l : Nat} (hl : l < N) {w : Who}
    (hT : ∃ w', T l = some w' ∧ w'.host = w.host ∧ w'.port = w.port ∧ w'.bin = w.bin)
    {k : Nat} {c : Proc} (h : At N T l w k c) {m : Msg} (hm : (full N T l)[k]? = some m)
    (hk : 1 ≤ k → ∀ q, q < N → (T q).isSome) :
    ∃ c' out, recv m c = .ok (c', out) ∧ At N T l w (k + 1) c' ∧
      out = if k = N then [.ok] else [] := by
  obtain ⟨w', hw, e1, e2, e3⟩ := hT
  have hlen := ids_length hl
  by_cases hk0 : k = 0
  · subst hk0
    have hc := h.zero rfl
    subst hc
    have hm' : m = .id l (ent T l) := by
      simp [full] at hm; exact hm.symm
    subst hm'
    have hent : ent T l = w' := by simp [ent, known, hw]
    refine ⟨{ newProc w with
          size := max 0 (l + 1)
          mystate := .regAccepted
          mylid := some l
          me := { w with loc := w'.loc }
          table := upd (newProc w).table l (some { w with loc := w'.loc })
          st := upd (newProc w).st l .regAccepted }, [], ?_, ?_, ?_⟩
    · have hlm : ¬ maxPeers ≤ l := by omega
      simp [recv, gotId, hlm, hent, newProc, e1, e2, e3, Except.map]
    · have hwe : ({ w with loc := w'.loc } : Who) = w' := by
        cases w; cases w'; simp at e1 e2 e3 ⊢; exact ⟨e1.symm, e2.symm, e3.symm⟩
      refine ⟨by omega, fun _ => rfl, fun _ => by rw [hw, hwe], by simp [newProc], ?_, ?_, ?_, ?_, ?_⟩
      · intro _; simp; omega
      · simp [newProc]
      · intro q _
        by_cases hq : q = l
        · subst hq; simp [upd, hw, hwe]
        · simp [upd, hq, newProc]
      · intro q _
        by_cases hq : q = l
        · subst hq; simp [upd]; omega
        · simp [upd, hq, newProc]
      · intro _; simp; omega
    · have : (0 : Nat) ≠ N := by omega
      simp [this]
  · obtain ⟨j, rfl⟩ : ∃ j, k = j + 1 := ⟨k - 1, by omega⟩
    have hml := h.mylid (by omega)
    have hms := h.mystate (by omega)
    have hst := fun q => h.st q (by omega)
    have htb := fun q => h.table q (by omega)
    have hsz := h.size (by omega)
    have hm1 : ((ids N l).map (fun q => Msg.newid q (ent T q)) ++ [.getready, .phase])[j]? = some m := by
      simpa [full] using hm
    by_cases hj : j < N - 1
    · -- another process
      have hjl : j < (ids N l).length := by omega
      rw [List.getElem?_append_left (by simpa using hjl), List.getElem?_map] at hm1
      cases hq : (ids N l)[j]? with
      | none => simp [hq] at hm1
      | some q =>
        rw [hq] at hm1
        simp only [Option.map_some, Option.some.injEq] at hm1
        subst hm1
        have hqm := mem_ids.1 (List.mem_of_getElem? hq)
        have hnm := not_mem_take (ids_nodup N l) hq
        simp only [Nat.add_sub_cancel] at hst htb hsz
        have htq : c.table q = none := by
          rw [htb]
          rw [if_neg]
          rintro (h | h)
          · exact hqm.2 h
          · exact hnm h
        have hms' : c.mystate = .regAccepted := by rw [hms, if_pos (by omega)]
        obtain ⟨wq, hwq⟩ := Option.isSome_iff_exists.1 (hk (by omega) q hqm.1)
        have hent : ent T q = wq := by simp [ent, known, hwq]
        refine ⟨{ c with
            size := max c.size (q + 1)
            table := upd c.table q (some wq)
            st := upd c.st q .noConnect
            peers := c.peers + 1 }, [], ?_, ?_, ?_⟩
        · have hlm : ¬ maxPeers ≤ q := by omega
          simp [recv, gotId, hlm, hml, hqm.2, htq, hms', hent, Except.map]
        · refine ⟨by omega, fun _ => hml, fun _ => h.me (by omega), ?_, ?_, ?_, ?_, ?_, ?_⟩
          · show c.peers + 1 = _
            rw [h.peers]; omega
          · intro _; show c.mystate = _; rw [hms', if_pos (by omega)]
          · show c.phase = _
            rw [h.phase]
            exact decide_eq_decide.2 (by omega)
          · intro r _
            show upd c.table q (some wq) r = _
            simp only [Nat.add_sub_cancel]
            simp only [take_succ_mem hq]
            by_cases hr : r = q
            · subst hr; rw [upd_same, if_pos (Or.inr (Or.inr rfl)), hwq]
            · rw [upd_ne _ _ hr, htb]; simp [hr]
          · intro r _
            show upd c.st q .noConnect r = _
            simp only [Nat.add_sub_cancel]
            simp only [take_succ_mem hq]
            by_cases hr : r = q
            · subst hr; rw [upd_same, if_neg hqm.2, if_pos (Or.inr rfl)]
            · rw [upd_ne _ _ hr, hst]
              have a1 : j + 1 ≤ N := by omega
              have a2 : j + 1 + 1 ≤ N := by omega
              simp [hr, a1, a2]
          · intro _
            simp only [Nat.add_sub_cancel]
            refine ⟨?_, ?_, ?_⟩
            · show l < max c.size (q + 1); omega
            · show max c.size (q + 1) ≤ N; omega
            · intro r hr
              show r < max c.size (q + 1)
              rw [take_succ_mem hq] at hr
              rcases hr with hr | rfl
              · have := hsz.2.2 r hr; omega
              · omega
        · have : ¬ j + 1 = N := by omega
          simp [this]
    · have htk : ∀ n, N - 1 ≤ n → (ids N l).take n = ids N l := fun n hn =>
        List.take_of_length_le (by omega)
      have hj2 : j < N + 1 := by
        have hh : j + 1 < (full N T l).length := (List.getElem?_eq_some_iff.1 hm).1
        rw [full_length hl] at hh
        omega
      rw [List.getElem?_append_right (by simp; omega)] at hm1
      simp only [List.length_map, hlen] at hm1
      simp only [Nat.add_sub_cancel] at hst htb hsz
      rw [htk j (by omega)] at hsz
      by_cases hjN : j + 1 = N
      · have e0 : j - (N - 1) = 0 := by omega
        rw [e0] at hm1
        simp at hm1
        subst hm1
        have hms' : c.mystate = .regAccepted := by rw [hms, if_pos (by omega)]
        refine ⟨{ c with mystate := .ready, st := upd c.st l .ready }, [.ok], ?_, ?_, ?_⟩
        · simp [recv, gotGetready, hms', hml]
        · refine ⟨by omega, fun _ => hml, fun _ => h.me (by omega), ?_, ?_, ?_, ?_, ?_, ?_⟩
          · show c.peers = _
            rw [h.peers]; omega
          · intro _; rw [if_neg (by omega)]
          · show c.phase = _
            rw [h.phase]
            exact decide_eq_decide.2 (by omega)
          · intro r _
            show c.table r = _
            rw [htb, htk j (by omega), htk _ (by omega)]
          · intro r _
            show upd c.st l .ready r = _
            by_cases hr : r = l
            · subst hr; rw [upd_same, if_pos rfl, if_neg (by omega)]
            · rw [upd_ne _ _ hr, hst, htk j (by omega), htk _ (by omega)]
              simp [hr]
          · intro _
            rw [htk _ (by omega)]
            exact hsz
        · simp [hjN]
      · have hjN' : j = N := by omega
        subst hjN'
        have e0 : j - (j - 1) = 1 := by omega
        rw [e0] at hm1
        simp at hm1
        subst hm1
        refine ⟨{ c with phase := true }, [], ?_, ?_, ?_⟩
        · simp [recv]
        · refine ⟨by omega, fun _ => hml, fun _ => h.me (by omega), ?_, ?_, ?_, ?_, ?_, ?_⟩
          · show c.peers = _
            rw [h.peers]; omega
          · intro _; show c.mystate = _; rw [hms, if_neg (by omega), if_neg (by omega)]
          · simp
          · intro r _
            show c.table r = _
            rw [htb, htk j (by omega), htk _ (by omega)]
          · intro r _
            show c.st r = _
            rw [hst, htk j (by omega), htk _ (by omega), if_neg (by omega : ¬ j + 1 ≤ j),
              if_neg (by omega : ¬ j + 1 + 1 ≤ j)]
          · intro _
            rw [htk _ (by omega)]
            exact hsz
        · simp

/-- With at most one command taken, only the own entry of the table matters. -/
theorem At_congr {N : Nat} {T T' : Nat → Option Who} {l : Nat} {w : Who} {k : Nat} {c : Proc}
    (hk : k ≤ 1) (hT : T l = T' l) (h : At N T l w k c) : At N T' l w k c where
  zero := h.zero
  mylid := h.mylid
  me := fun h1 => hT ▸ h.me h1
  peers := h.peers
  mystate := h.mystate
  phase := h.phase
  table := by
    intro q h1
    have e : k - 1 = 0 := by omega
    rw [h.table q h1, e]
    by_cases hq : q = l
    · subst hq; simp [hT]
    · simp [hq]
  st := h.st
  size := h.size

/-- Number of commands a process has taken. -/
def cnt (c : Proc) : Nat :=
  match c.mylid with
  | none => 0
  | some _ => 1 + c.peers + (if c.mystate = .ready then 1 else 0) + (if c.phase then 1 else 0)

theorem cnt_At {N : Nat} (hN : 2 ≤ N) {T : Nat → Option Who} {l : Nat} {w : Who} {k : Nat}
    {c : Proc} (hk : k ≤ N + 2) (h : At N T l w k c) : cnt c = k := by
  by_cases h0 : k = 0
  · rw [h.zero h0, h0]; rfl
  · unfold cnt
    rw [h.mylid (by omega), h.peers, h.mystate (by omega), h.phase]
    by_cases h1 : k ≤ N
    · have h2 : ¬ k = N + 2 := by omega
      simp [h1, h2]; omega
    · by_cases h2 : k = N + 2
      · subst h2; simp [h1]; omega
      · simp [h1, h2]; omega

/-- What is still to be done for a process. -/
def weight (N : Nat) (s : Sys) (p : Nat) : Nat :=
  2 * (N + 2 - cnt (s.proc p)) + (s.toM p).length

/-- What is still to be done. -/
def pot (N P : Nat) (s : Sys) : Nat :=
  ((List.range P).map (weight N s)).sum + (2 - s.m.stage)

theorem sum_le {f g : Nat → Nat} : ∀ (l : List Nat), (∀ p ∈ l, f p ≤ g p) →
    (l.map f).sum ≤ (l.map g).sum
  | [], _ => Nat.le_refl _
  | a :: l, h => by
    have h1 := h a (List.mem_cons_self ..)
    have h2 := sum_le (f := f) (g := g) l fun p hp => h p (List.mem_cons_of_mem _ hp)
    simp only [List.map_cons, List.sum_cons]
    omega

theorem sum_lt {f g : Nat → Nat} : ∀ (l : List Nat), (∀ p ∈ l, f p ≤ g p) →
    ∀ p ∈ l, f p < g p → (l.map f).sum < (l.map g).sum
  | a :: l, h, p, hp, hlt => by
    have h1 := h a (List.mem_cons_self ..)
    have h2 := sum_le (f := f) (g := g) l fun p hp => h p (List.mem_cons_of_mem _ hp)
    simp only [List.map_cons, List.sum_cons]
    rcases List.mem_cons.1 hp with rfl | hp
    · omega
    · have h3 := sum_lt (f := f) (g := g) l (fun p hp => h p (List.mem_cons_of_mem _ hp)) p hp hlt
      omega

/-- A process with a LID. -/
structure Used (N : Nat) (mw : Who) (who : Nat → Who) (s : Sys) (i p : Nat) : Prop where
  lid : s.m.lidOf p = some (i + 1)
  at_ : ∃ k, k ≤ avail N s.m.stage ∧
    At N (entry mw who s.m.reg) (i + 1) (who p) k (s.proc p) ∧
    s.toP p = ((full N (entry mw who s.m.reg) (i + 1)).take (avail N s.m.stage)).drop k
  toM : s.toM p = if (s.proc p).mystate = .ready ∧ s.m.st (i + 1) ≠ .ready then [.ok] else []
  rdy : s.m.st (i + 1) = .ready → (s.proc p).mystate = .ready
  mst0 : s.m.stage = 0 → s.m.st (i + 1) = .regAccepted
  mst1 : s.m.stage ≠ 0 → s.m.st (i + 1) = .regFinishing ∨ s.m.st (i + 1) = .ready

/-- A process without a LID. -/
structure Free (N P : Nat) (who : Nat → Who) (s : Sys) (p : Nat) : Prop where
  lid : s.m.lidOf p = none
  toP : s.toP p = []
  proc : s.proc p = newProc (who p)
  wait : (s.m.queued p = false ∧ s.toM p = if p < P then [registerMsg (who p)] else []) ∨
    (s.m.queued p = true ∧ s.toM p = [] ∧ s.m.reg.length + 1 = N ∧ p < P)

/-- Everything at one time; `H` are the processes heard so far. -/
structure Inv (N P : Nat) (mw : Who) (who : Nat → Who) (H : List Nat) (s : Sys) : Prop where
  nodup : s.m.reg.Nodup
  lt : ∀ p ∈ s.m.reg, p < P
  len : s.m.reg.length + 1 ≤ N
  peers : s.m.peers = s.m.reg.length
  count : s.m.readyPeers =
    (List.range s.m.reg.length).countP (fun i => decide (s.m.st (i + 1) = .ready))
  mystate : s.m.mystate =
    if s.m.reg.length + 1 < N then .inStartup
    else if s.m.readyPeers + 1 = N then .ready else .inStartup2
  all : s.m.stage ≠ 0 → s.m.reg.length + 1 = N
  fin : s.m.stage = 2 → s.m.readyPeers + 1 = N
  stage : s.m.stage ≤ 2
  table : ∀ lid, s.m.table lid = entry mw who s.m.reg lid
  used : ∀ i p : Nat, s.m.reg[i]? = some p → Used N mw who s i p
  free : ∀ p, p ∉ s.m.reg → Free N P who s p
  hreg : s.m.reg = H.take (N - 1)
  hmem : ∀ p, p ∈ H ↔ p ∈ s.m.reg ∨ s.m.queued p = true

/-- One step of `heard`. -/
def hear (e : Ev) (H : List Nat) : List Nat :=
  match e with
  | .master p => if p ∈ H then H else H ++ [p]
  | _ => H

theorem heard_cons (e : Ev) (es : List Ev) (H : List Nat) :
    heard (e :: es) H = heard es (hear e H) := by
  cases e <;> rfl

theorem Inv_start {N P : Nat} (hN : 2 ≤ N) (mw : Who) (who : Nat → Who) :
    Inv N P mw who [] (start mw who P) where
  nodup := List.nodup_nil
  lt := by intro p hp; exact absurd hp (by simp [start, newMaster])
  len := by simp [start, newMaster]; omega
  peers := rfl
  count := by simp [start, newMaster]
  mystate := by
    have : 0 + 1 < N := by omega
    simp [start, newMaster, this]
  all := by simp [start, newMaster]
  fin := by simp [start, newMaster]
  stage := by simp [start, newMaster]
  table := by
    intro lid
    cases lid with
    | zero => rfl
    | succ i => simp [start, newMaster, entry]
  used := by intro i p h; simp [start, newMaster] at h
  free := by
    intro p _
    exact ⟨rfl, rfl, rfl, Or.inl ⟨rfl, rfl⟩⟩
  hreg := by simp [start, newMaster]
  hmem := by intro p; simp [start, newMaster]

/-- What a step may do: nothing, or lead to a good state with less to do. -/
def Good (N P : Nat) (mw : Who) (who : Nat → Who) (H : List Nat) (s : Sys)
    (r : Except Bad Sys) : Prop :=
  r = .error .idle ∨ ∃ s', r = .ok s' ∧ Inv N P mw who H s' ∧ pot N P s' < pot N P s

theorem ready_full {N : Nat} {T : Nat → Option Who} {l : Nat} {w : Who} {k : Nat} {c : Proc}
    (h : At N T l w k c) : c.mystate = .ready ↔ N < k := by
  by_cases h0 : k = 0
  · rw [h.zero h0]; simp [newProc]; omega
  · rw [h.mystate (by omega)]
    by_cases h1 : k ≤ N
    · simp [h1]
    · simp [h1]; omega

/-- Own entry of a member. -/
theorem entry_at {mw : Who} {who : Nat → Who} {reg : List Nat} {i p : Nat}
    (h : reg[i]? = some p) :
    entry mw who reg (i + 1) = some (tag (i + 1) { who p with loc := (who p).loc.take 30 }) := by
  simp [entry, h]

theorem entry_some {mw : Who} {who : Nat → Who} {reg : List Nat} {q : Nat}
    (h : q < reg.length + 1) : (entry mw who reg q).isSome := by
  cases q with
  | zero => rfl
  | succ i => simp [entry]; omega

theorem Inv_peer {N P : Nat} (hN : 2 ≤ N) (hmax : N ≤ maxPeers) {mw : Who} {who : Nat → Who}
    {H : List Nat} {s : Sys} (h : Inv N P mw who H s) (p : Nat) :
    Good N P mw who H s (peerStep p s) := by
  unfold Good peerStep
  by_cases hp : p ∈ s.m.reg
  swap
  · left; rw [(h.free p hp).toP]
  obtain ⟨i, hi, hip⟩ := List.getElem_of_mem hp
  have hi' : s.m.reg[i]? = some p := by rw [← hip]; simp
  have hu := h.used i p hi'
  obtain ⟨k, hk, hat, hto⟩ := hu.at_
  have hl : i + 1 < N := by have := h.len; omega
  cases hq : s.toP p with
  | nil => left; rfl
  | cons m ms =>
    right
    rw [hto] at hq
    have hav : avail N s.m.stage ≤ N + 2 := by unfold avail; split_ifs <;> omega
    have hkl : k < avail N s.m.stage := by
      have := congrArg List.length hq
      simp [full_length hl] at this
      omega
    have hmk : (full N (entry mw who s.m.reg) (i + 1))[k]? = some m := by
      have : (((full N (entry mw who s.m.reg) (i + 1)).take (avail N s.m.stage)).drop k)[0]? = some m := by
        rw [hq]; rfl
      rw [List.getElem?_drop, List.getElem?_take] at this
      simpa [hkl] using this
    have hms : ms = ((full N (entry mw who s.m.reg) (i + 1)).take (avail N s.m.stage)).drop (k + 1) := by
      have := congrArg List.tail hq
      simp only [List.tail_drop, List.tail_cons] at this
      exact this.symm
    obtain ⟨c', out, hr, hat', hout⟩ := At_step hN hmax hl
      (T := entry mw who s.m.reg) (w := who p)
      ⟨_, entry_at hi', rfl, rfl, rfl⟩ hat hmk (by
        intro h1 q hq
        have hs : s.m.stage ≠ 0 := by
          intro h0
          rw [h0] at hkl
          simp [avail] at hkl
          omega
        exact entry_some (by have := h.all hs; omega))
    have hpP := h.lt p hp
    -- the answer
    have htoM : s.toM p ++ out =
        if c'.mystate = .ready ∧ s.m.st (i + 1) ≠ .ready then [.ok] else [] := by
      rw [hu.toM, hout]
      simp only [ready_full hat, ready_full hat']
      by_cases hkN : k = N
      · have hnr : s.m.st (i + 1) ≠ .ready := by
          intro hc
          have := (ready_full hat).1 (hu.rdy hc)
          omega
        subst hkN
        simp [hnr]
      · have e : (N < k + 1) ↔ N < k := by omega
        simp [hkN, e]
    refine ⟨_, by simp only [hr]; rfl, ?_, ?_⟩
    · refine ⟨h.nodup, h.lt, h.len, h.peers, h.count, h.mystate, h.all, h.fin, h.stage, h.table,
        ?_, ?_, h.hreg, h.hmem⟩
      · intro j p' hj
        by_cases hpp : p' = p
        · subst hpp
          have hji := idx_inj h.nodup hi' hj
          subst hji
          refine ⟨hu.lid, ⟨k + 1, hkl, ?_, ?_⟩, ?_, ?_, hu.mst0, hu.mst1⟩
          · show At _ _ _ _ _ (upd s.proc p' c' p'); rw [upd_same]; exact hat'
          · show upd s.toP p' ms p' = _; rw [upd_same]; exact hms
          · show upd s.toM p' (s.toM p' ++ out) p' =
              if (upd s.proc p' c' p').mystate = .ready ∧ s.m.st (i + 1) ≠ .ready then _ else _
            rw [upd_same, upd_same]; exact htoM
          · intro hc
            show (upd s.proc p' c' p').mystate = .ready
            rw [upd_same, ready_full hat']
            have := (ready_full hat).1 (hu.rdy hc)
            omega
        · have hu' := h.used j p' hj
          refine ⟨hu'.lid, ?_, ?_, ?_, hu'.mst0, hu'.mst1⟩
          · obtain ⟨k', a, b, c⟩ := hu'.at_
            refine ⟨k', a, ?_, ?_⟩
            · show At _ _ _ _ _ (upd s.proc p c' p'); rw [upd_ne _ _ hpp]; exact b
            · show upd s.toP p ms p' = _; rw [upd_ne _ _ hpp]; exact c
          · show upd s.toM p (s.toM p ++ out) p' =
              if (upd s.proc p c' p').mystate = .ready ∧ s.m.st (j + 1) ≠ .ready then _ else _
            rw [upd_ne _ _ hpp, upd_ne _ _ hpp]; exact hu'.toM
          · intro hc
            show (upd s.proc p c' p').mystate = .ready
            rw [upd_ne _ _ hpp]; exact hu'.rdy hc
      · intro p' hp'
        have hpp : p' ≠ p := fun e => hp' (e ▸ hp)
        have hf := h.free p' hp'
        refine ⟨hf.lid, ?_, ?_, ?_⟩
        · show upd s.toP p ms p' = _; rw [upd_ne _ _ hpp]; exact hf.toP
        · show upd s.proc p c' p' = _; rw [upd_ne _ _ hpp]; exact hf.proc
        · show (_ ∧ upd s.toM p (s.toM p ++ out) p' = _) ∨ (_ ∧ upd s.toM p (s.toM p ++ out) p' = _ ∧ _)
          rw [upd_ne _ _ hpp]; exact hf.wait
    · unfold pot
      have hw : ∀ q, q ≠ p → weight N { s with
          proc := upd s.proc p c'
          toP := upd s.toP p ms
          toM := upd s.toM p (s.toM p ++ out) } q = weight N s q := by
        intro q hq
        simp [weight, upd_ne _ _ hq]
      have hw2 : weight N { s with
          proc := upd s.proc p c'
          toP := upd s.toP p ms
          toM := upd s.toM p (s.toM p ++ out) } p < weight N s p := by
        simp only [weight, upd_same]
        rw [cnt_At hN (by omega) hat, cnt_At hN (by omega) hat', List.length_append, hout]
        split_ifs <;> simp <;> omega
      have := sum_lt (List.range P) (fun q _ => by
        by_cases hqp : q = p
        · subst hqp; exact Nat.le_of_lt hw2
        · exact Nat.le_of_eq (hw q hqp)) p (List.mem_range.2 hpP) hw2
      exact Nat.add_lt_add_right this _

theorem countP_upd {f g : Nat → Bool} {i : Nat} (hf : f i = false) (hg : g i = true)
    (he : ∀ j, j ≠ i → f j = g j) : ∀ (l : List Nat), l.Nodup →
    l.countP g = l.countP f + if i ∈ l then 1 else 0
  | [], _ => rfl
  | a :: l, hn => by
    have ih := countP_upd hf hg he l (List.nodup_cons.1 hn).2
    rw [List.countP_cons, List.countP_cons, ih]
    by_cases ha : a = i
    · subst ha
      have := (List.nodup_cons.1 hn).1
      simp [hf, hg, this]
    · rw [he a ha]
      have : (i ∈ a :: l) ↔ i ∈ l := by
        rw [List.mem_cons]; exact ⟨fun h => h.resolve_left fun e => ha e.symm, Or.inr⟩
      simp only [this]
      omega

theorem weight_toM {N : Nat} {s s' : Sys} {p : Nat} {ms : List Msg} {m : Msg}
    (h : s.toM p = m :: ms) (hp : s'.proc = s.proc) (ht : s'.toM = upd s.toM p ms)
    (hst : s'.m.stage = s.m.stage) {P : Nat} (hpP : p < P) : pot N P s' < pot N P s := by
  unfold pot
  have hw : ∀ q, q ≠ p → weight N s' q = weight N s q := by
    intro q hq
    simp [weight, hp, ht, upd_ne _ _ hq]
  have hw2 : weight N s' p < weight N s p := by
    simp only [weight, hp, ht, upd_same, h, List.length_cons]
    omega
  have := sum_lt (List.range P) (fun q _ => by
    by_cases hqp : q = p
    · subst hqp; exact Nat.le_of_lt hw2
    · exact Nat.le_of_eq (hw q hqp)) p (List.mem_range.2 hpP) hw2
  rw [hst]
  exact Nat.add_lt_add_right this _

theorem Inv_ok {N P : Nat} (hN : 2 ≤ N) {mw : Who} {who : Nat → Who}
    {H : List Nat} {s : Sys} (h : Inv N P mw who H s) (i p : Nat)
    (hi : s.m.reg[i]? = some p) {ms : List Msg} (hm : s.toM p = .ok :: ms) :
    Inv N P mw who H (gotOk N p { s with toM := upd s.toM p ms }) ∧
      pot N P (gotOk N p { s with toM := upd s.toM p ms }) < pot N P s := by
  have hu := h.used i p hi
  have hp : p ∈ s.m.reg := List.mem_of_getElem? hi
  have hcond : (s.proc p).mystate = .ready ∧ s.m.st (i + 1) ≠ .ready := by
    have := hu.toM
    rw [hm] at this
    by_cases hc : (s.proc p).mystate = .ready ∧ s.m.st (i + 1) ≠ .ready
    · exact hc
    · rw [if_neg hc] at this; cases this
  have hms : ms = [] := by
    have := hu.toM
    rw [hm, if_pos hcond] at this
    simpa using this
  subst hms
  have hstage : s.m.stage ≠ 0 := by
    intro h0
    obtain ⟨k, hk, hat, _⟩ := hu.at_
    rw [h0] at hk
    have h1 : k ≤ 1 := by simpa [avail] using hk
    have := (ready_full hat).1 hcond.1
    omega
  have hfin : s.m.st (i + 1) = .regFinishing := (hu.mst1 hstage).resolve_right hcond.2
  have hlen := h.all hstage
  have hilt : i < s.m.reg.length := (List.getElem?_eq_some_iff.1 hi).1
  have hcnt : (List.range s.m.reg.length).countP
        (fun j => decide (upd s.m.st (i + 1) .ready (j + 1) = .ready)) = s.m.readyPeers + 1 := by
    rw [h.count, countP_upd (f := fun j => decide (s.m.st (j + 1) = .ready)) (i := i)
      (by simp [hcond.2]) (by simp [upd]) (by
        intro j hj
        have : j + 1 ≠ i + 1 := by omega
        simp [upd, hj]) _ List.nodup_range]
    simp [hilt]
  have hle : s.m.readyPeers + 1 ≤ s.m.reg.length := by
    rw [← hcnt]
    have := List.countP_le_length (l := List.range s.m.reg.length)
      (p := fun j => decide (upd s.m.st (i + 1) .ready (j + 1) = .ready))
    simpa using this
  have e : gotOk N p { s with toM := upd s.toM p [] } =
      { s with
        toM := upd s.toM p []
        m := { s.m with
          st := upd s.m.st (i + 1) .ready
          readyPeers := s.m.readyPeers + 1
          mystate :=
            if s.m.mystate = .inStartup2 ∧ s.m.readyPeers + 1 + 1 = N then .ready
            else s.m.mystate } } := by
    simp [gotOk, hu.lid, hfin]
  rw [e]
  refine ⟨⟨h.nodup, h.lt, h.len, h.peers, hcnt.symm, ?_, h.all, ?_, h.stage, h.table, ?_, ?_,
    h.hreg, h.hmem⟩, by
      have := h.lt p hp
      apply weight_toM hm <;> first | rfl | exact this⟩
  · show (if s.m.mystate = .inStartup2 ∧ s.m.readyPeers + 1 + 1 = N then PS.ready
            else s.m.mystate) =
      if s.m.reg.length + 1 < N then .inStartup
      else if s.m.readyPeers + 1 + 1 = N then .ready else .inStartup2
    have hms : s.m.mystate = .inStartup2 := by
      rw [h.mystate, if_neg (by omega), if_neg (by omega)]
    rw [hms, if_neg (by omega : ¬ s.m.reg.length + 1 < N)]
    simp
  · intro h2
    have := h.fin h2
    omega
  · intro j p' hj
    by_cases hpp : p' = p
    · subst hpp
      have hji := idx_inj h.nodup hi hj
      subst hji
      refine ⟨hu.lid, hu.at_, ?_, fun _ => hcond.1, fun h0 => absurd h0 hstage, fun _ => ?_⟩
      · show upd s.toM p' [] p' = if (s.proc p').mystate = .ready ∧ upd s.m.st (i + 1) .ready (i + 1) ≠ .ready then _ else _
        rw [upd_same, upd_same]; simp
      · right; show upd s.m.st (i + 1) .ready (i + 1) = _; rw [upd_same]
    · have hu' := h.used j p' hj
      have hne : j + 1 ≠ i + 1 := by
        intro e
        have : j = i := by omega
        subst this
        rw [hi] at hj
        exact hpp (Option.some.inj hj).symm
      have es : upd s.m.st (i + 1) .ready (j + 1) = s.m.st (j + 1) := upd_ne _ _ hne
      refine ⟨hu'.lid, hu'.at_, ?_, ?_, ?_, ?_⟩
      · show upd s.toM p [] p' = if (s.proc p').mystate = .ready ∧ upd s.m.st (i + 1) .ready (j + 1) ≠ .ready then _ else _
        rw [upd_ne _ _ hpp, es]; exact hu'.toM
      · show upd s.m.st (i + 1) .ready (j + 1) = .ready → _
        rw [es]; exact hu'.rdy
      · intro h0; show upd s.m.st (i + 1) .ready (j + 1) = _; rw [es]; exact hu'.mst0 h0
      · intro h0
        show upd s.m.st (i + 1) .ready (j + 1) = _ ∨ upd s.m.st (i + 1) .ready (j + 1) = _
        rw [es]; exact hu'.mst1 h0
  · intro p' hp'
    have hpp : p' ≠ p := fun e => hp' (e ▸ hp)
    have hf := h.free p' hp'
    refine ⟨hf.lid, hf.toP, hf.proc, ?_⟩
    show (_ ∧ upd s.toM p [] p' = _) ∨ (_ ∧ upd s.toM p [] p' = _ ∧ _)
    rw [upd_ne _ _ hpp]; exact hf.wait

theorem entry_append {mw : Who} {who : Nat → Who} {reg : List Nat} {p q : Nat}
    (h : q ≠ reg.length + 1) : entry mw who (reg ++ [p]) q = entry mw who reg q := by
  cases q with
  | zero => rfl
  | succ i =>
    have hi : i ≠ reg.length := by omega
    simp only [entry]
    by_cases h1 : i < reg.length
    · rw [List.getElem?_append_left h1]
    · rw [List.getElem?_eq_none (by simp; omega), List.getElem?_eq_none (by omega)]

theorem full_take1 (N : Nat) (T : Nat → Option Who) (l : Nat) :
    (full N T l).take 1 = [.id l (ent T l)] := rfl

theorem Inv_register {N P : Nat} (hN : 2 ≤ N) (hmax : N ≤ maxPeers) {mw : Who}
    {who : Nat → Who} (hs : ∀ p, p < P → (who p).host.length ≤ 30)
    {H : List Nat} {s : Sys} (h : Inv N P mw who H s) (p : Nat)
    (hp : p ∉ s.m.reg) (hq : s.m.queued p = false) (hpP : p < P)
    (hm : s.toM p = [registerMsg (who p)]) :
    ∃ s', gotRegister N p
        { who p with loc := (who p).loc.take 30, host := (who p).host.take 30 }
        { s with toM := upd s.toM p [] } = .ok s' ∧
      Inv N P mw who (hear (.master p) H) s' ∧ pot N P s' < pot N P s := by
  have hf := h.free p hp
  have hnH : p ∉ H := by
    rw [h.hmem p, hq]; simp [hp]
  have hear_eq : hear (.master p) H = H ++ [p] := by simp [hear, hnH]
  rw [hear_eq]
  have hHlen : H.length < N - 1 → H = s.m.reg := fun h1 => by
    rw [h.hreg, List.take_of_length_le (by omega)]
  have hrl : s.m.reg.length = min (N - 1) H.length := by
    rw [h.hreg]; simp
  by_cases hst : s.m.reg.length + 1 < N
  · -- a new LID
    have hms : s.m.mystate = .inStartup := by rw [h.mystate, if_pos hst]
    have h0 : s.m.stage = 0 := by
      by_contra hc
      have := h.all hc; omega
    have htab : s.m.table (s.m.reg.length + 1) = none := by
      rw [h.table]; simp [entry]
    have hlm : ¬ maxPeers ≤ s.m.reg.length + 1 := by omega
    have htk : (who p).host.take 30 = (who p).host := List.take_of_length_le (hs p hpP)
    refine ⟨_, by
      simp only [gotRegister, hf.lid, hms, htab, if_neg hlm, Option.isSome_none]
      simp
      rfl, ?_, ?_⟩
    swap
    · apply weight_toM hm <;> first | rfl | exact hpP
    have hnd : (s.m.reg ++ [p]).Nodup := by
      rw [List.nodup_append]
      refine ⟨h.nodup, by simp, ?_⟩
      intro a ha b hb
      simp at hb
      subst hb
      exact fun e => hp (e ▸ ha)
    have hidx : (s.m.reg ++ [p])[s.m.reg.length]? = some p := by simp
    have hall : s.m.readyPeers = 0 := by
      rw [h.count, List.countP_eq_zero]
      intro i hi
      have hi' : i < s.m.reg.length := List.mem_range.1 hi
      have := (h.used i _ (List.getElem?_eq_getElem hi')).mst0 h0
      simp [this]
    refine ⟨hnd, ?_, ?_, ?_, ?_, ?_, ?_, ?_, h.stage, ?_, ?_, ?_, ?_, ?_⟩
    · intro q hq
      rcases List.mem_append.1 hq with hq | hq
      · exact h.lt q hq
      · simp at hq; omega
    · simp; omega
    · simp [h.peers]
    · show s.m.readyPeers = _
      rw [hall]
      symm
      rw [List.countP_eq_zero]
      intro i hi
      have hi' : i < s.m.reg.length + 1 := by simpa using hi
      by_cases hil : i = s.m.reg.length
      · subst hil; simp [upd]
      · have hi2 : i < s.m.reg.length := by omega
        have := (h.used i _ (List.getElem?_eq_getElem hi2)).mst0 h0
        simp [upd, hil, this]
    · show (if s.m.peers + 1 + 1 = N then PS.inStartup2 else PS.inStartup) =
        if (s.m.reg ++ [p]).length + 1 < N then .inStartup
        else if s.m.readyPeers + 1 = N then .ready else .inStartup2
      rw [hall, h.peers, List.length_append, List.length_singleton]
      have : ¬ (0 + 1 = N) := by omega
      rw [if_neg this]
      by_cases hc : s.m.reg.length + 1 + 1 = N
      · rw [if_pos hc, if_neg (by omega)]
      · rw [if_neg hc, if_pos (by omega)]
    · intro hc; exact absurd h0 hc
    · intro hc; exact absurd (hc.symm.trans h0) (by decide)
    · intro lid
      show upd s.m.table (s.m.reg.length + 1) _ lid = entry mw who (s.m.reg ++ [p]) lid
      by_cases hl : lid = s.m.reg.length + 1
      · subst hl
        rw [upd_same, entry_at hidx, htk]
      · rw [upd_ne _ _ hl, entry_append hl, h.table]
    · intro j p' hj
      by_cases hpp : p' = p
      · subst hpp
        have hji := idx_inj hnd hidx hj
        subst hji
        refine ⟨?_, ⟨0, Nat.zero_le _, ?_, ?_⟩, ?_, ?_, ?_, ?_⟩
        · exact upd_same _ _ _
        · show At _ _ _ _ _ (s.proc p')
          rw [hf.proc]; exact At_new _ _ _ _
        · show send (s.m.reg ++ [p']) (s.m.reg.length + 1) _ s.toP p' =
            ((full N (entry mw who (s.m.reg ++ [p'])) (s.m.reg.length + 1)).take (avail N s.m.stage)).drop 0
          rw [send_at _ _ hidx, hf.toP, h0]
          simp only [avail, if_true, full_take1]
          simp [ent, known, entry_at hidx, htk]
        · show upd s.toM p' [] p' = if (s.proc p').mystate = .ready ∧ _ then _ else _
          rw [upd_same, hf.proc]; simp [newProc]
        · show upd s.m.st (s.m.reg.length + 1) .regAccepted (s.m.reg.length + 1) = .ready → _
          rw [upd_same]; intro hc; cases hc
        · intro _; exact upd_same _ _ _
        · intro hc; exact absurd h0 hc
      · have hjl : j ≠ s.m.reg.length := by
          rintro rfl
          rw [hidx] at hj
          exact hpp (Option.some.inj hj).symm
        have hj2 : j < s.m.reg.length := by
          have := (List.getElem?_eq_some_iff.1 hj).1
          simp at this
          omega
        have hj' : s.m.reg[j]? = some p' := by
          rwa [List.getElem?_append_left hj2] at hj
        have hu := h.used j p' hj'
        have es : upd s.m.st (s.m.reg.length + 1) .regAccepted (j + 1) = s.m.st (j + 1) :=
          upd_ne _ _ (by omega)
        refine ⟨?_, ?_, ?_, ?_, ?_, ?_⟩
        · show upd s.m.lidOf p _ p' = _
          rw [upd_ne _ _ hpp]; exact hu.lid
        · obtain ⟨k, a, b, c⟩ := hu.at_
          have hk1 : k ≤ 1 := by rw [h0] at a; simpa [avail] using a
          have hent : entry mw who (s.m.reg ++ [p]) (j + 1) = entry mw who s.m.reg (j + 1) :=
            entry_append (by omega)
          refine ⟨k, a, At_congr hk1 hent.symm b, ?_⟩
          show send (s.m.reg ++ [p]) (s.m.reg.length + 1) _ s.toP p' =
            ((full N (entry mw who (s.m.reg ++ [p])) (j + 1)).take (avail N s.m.stage)).drop k
          rw [send_other hnd j p' _ hj (by omega) (by omega), c, h0]
          simp only [avail, if_true, full_take1, ent, known, hent]
        · show upd s.toM p [] p' = if (s.proc p').mystate = .ready ∧ upd s.m.st (s.m.reg.length + 1) .regAccepted (j + 1) ≠ .ready then _ else _
          rw [upd_ne _ _ hpp, es]; exact hu.toM
        · show upd s.m.st (s.m.reg.length + 1) .regAccepted (j + 1) = .ready → _
          rw [es]; exact hu.rdy
        · intro a; show upd s.m.st (s.m.reg.length + 1) .regAccepted (j + 1) = _
          rw [es]; exact hu.mst0 a
        · intro a; exact absurd h0 a
    · intro p' hp'
      have hp2 : p' ∉ s.m.reg := fun hc => hp' (List.mem_append_left _ hc)
      have hpp : p' ≠ p := fun e => hp' (e ▸ List.mem_append_right _ (List.mem_singleton.2 rfl))
      have hf' := h.free p' hp2
      refine ⟨?_, ?_, hf'.proc, ?_⟩
      · show upd s.m.lidOf p _ p' = _
        rw [upd_ne _ _ hpp]; exact hf'.lid
      · show send (s.m.reg ++ [p]) _ _ s.toP p' = _
        rw [send_out _ _ hp']; exact hf'.toP
      · show (_ ∧ upd s.toM p [] p' = _) ∨ (_ ∧ upd s.toM p [] p' = _ ∧ (s.m.reg ++ [p]).length + 1 = N ∧ _)
        rw [upd_ne _ _ hpp]
        rcases hf'.wait with a | a
        · exact Or.inl a
        · have := a.2.2.1; omega
    · show s.m.reg ++ [p] = (H ++ [p]).take (N - 1)
      have hH := hHlen (by omega)
      rw [hH, List.take_of_length_le (by simp; omega)]
    · intro q
      show q ∈ H ++ [p] ↔ q ∈ s.m.reg ++ [p] ∨ s.m.queued q = true
      rw [List.mem_append, h.hmem q, List.mem_append]
      tauto
  · -- waits for a resize
    have hlen : s.m.reg.length + 1 = N := by have := h.len; omega
    have hms : s.m.mystate ≠ .inStartup := by
      rw [h.mystate, if_neg hst]; split_ifs <;> decide
    refine ⟨{ s with
        toM := upd s.toM p []
        m := { s.m with queued := upd s.m.queued p true } }, by
      simp [gotRegister, hf.lid, hms, hq], ?_, by
        apply weight_toM hm <;> first | rfl | exact hpP⟩
    refine ⟨h.nodup, h.lt, h.len, h.peers, h.count, h.mystate, h.all, h.fin, h.stage, h.table,
      ?_, ?_, ?_, ?_⟩
    · intro j p' hj
      have hpp : p' ≠ p := fun e => hp (e ▸ List.mem_of_getElem? hj)
      have hu := h.used j p' hj
      refine ⟨hu.lid, hu.at_, ?_, hu.rdy, hu.mst0, hu.mst1⟩
      show upd s.toM p [] p' = _
      rw [upd_ne _ _ hpp]; exact hu.toM
    · intro p' hp'
      have hf' := h.free p' hp'
      by_cases hpp : p' = p
      · subst hpp
        refine ⟨hf.lid, hf.toP, hf.proc, Or.inr ⟨upd_same _ _ _, upd_same _ _ _, hlen, hpP⟩⟩
      · refine ⟨hf'.lid, hf'.toP, hf'.proc, ?_⟩
        show (upd s.m.queued p true p' = _ ∧ upd s.toM p [] p' = _) ∨
          (upd s.m.queued p true p' = _ ∧ upd s.toM p [] p' = _ ∧ _)
        rw [upd_ne _ _ hpp, upd_ne _ _ hpp]; exact hf'.wait
    · show s.m.reg = (H ++ [p]).take (N - 1)
      rw [List.take_append_of_le_length (by omega)]; exact h.hreg
    · intro q
      show q ∈ H ++ [p] ↔ q ∈ s.m.reg ∨ upd s.m.queued p true q = true
      rw [List.mem_append, h.hmem q]
      by_cases hqp : q = p
      · subst hqp; simp [upd]
      · simp [upd, hqp]

theorem Inv_master {N P : Nat} (hN : 2 ≤ N) (hmax : N ≤ maxPeers) {mw : Who}
    {who : Nat → Who} (hs : ∀ p, p < P → (who p).host.length ≤ 30)
    {H : List Nat} {s : Sys} (h : Inv N P mw who H s) (p : Nat) :
    Good N P mw who (hear (.master p) H) s (masterStep N p s) := by
  unfold Good masterStep
  cases hq : s.toM p with
  | nil => exact Or.inl rfl
  | cons m ms =>
    right
    by_cases hp : p ∈ s.m.reg
    · obtain ⟨i, hi, hip⟩ := List.getElem_of_mem hp
      have hi' : s.m.reg[i]? = some p := by rw [← hip]; simp
      have hu := h.used i p hi'
      have hm : m = .ok := by
        have := hu.toM
        rw [hq] at this
        split_ifs at this
        simpa using (List.cons.inj this).1
      subst hm
      have hH : hear (.master p) H = H := by
        have : p ∈ H := (h.hmem p).2 (Or.inl hp)
        simp [hear, this]
      rw [hH]
      exact ⟨_, rfl, Inv_ok hN h i p hi' hq⟩
    · have hf := h.free p hp
      rcases hf.wait with ⟨hqu, hm⟩ | ⟨_, hm, _⟩
      · by_cases hpP : p < P
        · rw [if_pos hpP] at hm
          have e := hq.symm.trans hm
          injection e with e1 e2
          subst e1 e2
          exact Inv_register hN hmax hs h p hp hqu hpP hm
        · rw [if_neg hpP] at hm
          rw [hm] at hq; cases hq
      · rw [hm] at hq; cases hq

theorem full_split (N : Nat) (T : Nat → Option Who) {l : Nat} (hl : l < N) :
    (full N T l).take (N + 1) = (full N T l).take 1 ++
      ((ids N l).map (fun q => Msg.newid q (ent T q)) ++ [.getready]) := by
  have e : full N T l = ((.id l (ent T l) :: (ids N l).map (fun q => Msg.newid q (ent T q))) ++
      [.getready]) ++ [.phase] := by simp [full]
  have hlen : ((.id l (ent T l) :: (ids N l).map (fun q => Msg.newid q (ent T q))) ++
      [Msg.getready]).length = N + 1 := by simp [ids_length hl]; omega
  rw [full_take1, e, ← hlen, List.take_left]
  simp

theorem full_last (N : Nat) (T : Nat → Option Who) {l : Nat} (hl : l < N) :
    (full N T l).take (N + 2) = (full N T l).take (N + 1) ++ [.phase] := by
  rw [full_split N T hl, List.take_of_length_le (Nat.le_of_eq (full_length hl T)), full_take1]
  simp [full]

theorem pot_stage {N P : Nat} {s s' : Sys} (hp : s'.proc = s.proc) (ht : s'.toM = s.toM)
    (h1 : s.m.stage < s'.m.stage) (h2 : s'.m.stage ≤ 2) : pot N P s' < pot N P s := by
  unfold pot
  have : weight N s' = weight N s := by
    funext q; simp [weight, hp, ht]
  rw [this]
  omega

theorem Inv_main {N P : Nat} (hN : 2 ≤ N) {mw : Who} {who : Nat → Who}
    {H : List Nat} {s : Sys} (h : Inv N P mw who H s) :
    Good N P mw who H s (mainStep N s) := by
  unfold Good
  have hrng : ∀ i, i ∈ List.range' 1 s.m.reg.length ↔ 1 ≤ i ∧ i ≤ s.m.reg.length := by
    intro i; simp; omega
  have hst3 := h.stage
  by_cases h0 : s.m.stage = 0
  · by_cases hl : s.m.reg.length + 1 < N
    · left
      have : s.m.mystate = .inStartup := by rw [h.mystate, if_pos hl]
      simp [mainStep, h0, this]
    · right
      have hlen : s.m.reg.length + 1 = N := by have := h.len; omega
      have hacc : ∀ i, 1 ≤ i ∧ i ≤ s.m.reg.length → s.m.st i = .regAccepted := by
        intro i hi
        have hi2 : i - 1 < s.m.reg.length := by omega
        have := (h.used (i - 1) _ (List.getElem?_eq_getElem hi2)).mst0 h0
        rwa [Nat.sub_add_cancel hi.1] at this
      have hrp : s.m.readyPeers = 0 := by
        rw [h.count, List.countP_eq_zero]
        intro i hi
        have hi' : i < s.m.reg.length := List.mem_range.1 hi
        simp [hacc (i + 1) (by omega)]
      have hms : s.m.mystate = .inStartup2 := by
        rw [h.mystate, if_neg hl, if_neg (by omega)]
      have hpe : s.m.peers + 1 = N := by rw [h.peers]; exact hlen
      have hany : (List.range' 1 s.m.reg.length).any (fun i => s.m.st i ≠ .regAccepted) = false := by
        rw [List.any_eq_false]
        intro i hi
        simp [hacc i ((hrng i).1 hi)]
      refine ⟨{ s with
        m := { s.m with
          stage := 1
          st := fun i => if i ∈ List.range' 1 s.m.reg.length then .regFinishing else s.m.st i }
        toP := sendList s.m.reg (fun _ => some .getready) (List.range' 1 s.m.reg.length)
          (broadcast s.m s.toP) }, ?_, ?_, ?_⟩
      · unfold mainStep
        simp only [h0, hms, hpe, hany]
        simp
      · have hst' : ∀ j, j < s.m.reg.length →
            (if j + 1 ∈ List.range' 1 s.m.reg.length then PS.regFinishing else s.m.st (j + 1))
              = .regFinishing := fun j hj => if_pos ((hrng _).2 (by omega))
        refine ⟨h.nodup, h.lt, h.len, h.peers, ?_, h.mystate, fun _ => hlen, ?_, ?_, h.table,
          ?_, ?_, h.hreg, h.hmem⟩
        · show s.m.readyPeers = _
          rw [hrp]; symm
          rw [List.countP_eq_zero]
          intro i hi
          have hi' : i < s.m.reg.length := List.mem_range.1 hi
          show ¬ decide ((if i + 1 ∈ List.range' 1 s.m.reg.length then PS.regFinishing
            else s.m.st (i + 1)) = .ready) = true
          rw [hst' i hi']; decide
        · intro hc; cases hc
        · show 1 ≤ 2; decide
        · intro j p hj
          have hu := h.used j p hj
          have hjl : j < s.m.reg.length := (List.getElem?_eq_some_iff.1 hj).1
          have hjN : j + 1 < N := by omega
          refine ⟨hu.lid, ?_, ?_, ?_, ?_, ?_⟩
          · obtain ⟨k, a, b, c⟩ := hu.at_
            rw [h0] at a c
            have a1 : k ≤ 1 := by simpa [avail] using a
            refine ⟨k, by show k ≤ N + 1; omega, b, ?_⟩
            show sendList s.m.reg (fun _ => some .getready) (List.range' 1 s.m.reg.length)
              (broadcast s.m s.toP) p = ((full N (entry mw who s.m.reg) (j + 1)).take (N + 1)).drop k
            have hc : s.toP p = ((full N (entry mw who s.m.reg) (j + 1)).take 1).drop k := by
              simpa [avail] using c
            have hT : s.m.table = entry mw who s.m.reg := funext h.table
            have hids : (List.range (s.m.reg.length + 1)).filter (· ≠ j + 1) = ids N (j + 1) := by
              rw [hlen]; rfl
            rw [sendList_at h.nodup j p hj _ _ _ List.nodup_range'
                (fun t ht => ((hrng t).1 ht).1), if_pos ((hrng _).2 (by omega)), broadcast,
              bcast_aux h.nodup j p hj (fun lid => .newid lid (known s.m.table lid)), hids, hc, hT,
              full_split N _ hjN]
            rw [List.drop_append_of_le_length (by rw [full_take1]; simpa using a1)]
            simp [ent]
          · show s.toM p = if (s.proc p).mystate = .ready ∧
              (if j + 1 ∈ List.range' 1 s.m.reg.length then PS.regFinishing
                else s.m.st (j + 1)) ≠ .ready then _ else _
            rw [hu.toM]
            have e1 : (if j + 1 ∈ List.range' 1 s.m.reg.length then PS.regFinishing
                else s.m.st (j + 1)) ≠ .ready := by rw [hst' j hjl]; decide
            have e2 : s.m.st (j + 1) ≠ .ready := by rw [hu.mst0 h0]; decide
            by_cases hr : (s.proc p).mystate = .ready
            · rw [if_pos ⟨hr, e2⟩, if_pos ⟨hr, e1⟩]
            · rw [if_neg (fun h => hr h.1), if_neg (fun h => hr h.1)]
          · show (if j + 1 ∈ List.range' 1 s.m.reg.length then PS.regFinishing
                else s.m.st (j + 1)) = .ready → _
            rw [hst' j hjl]; intro hc; cases hc
          · intro hc; cases hc
          · intro _; left; exact hst' j hjl
        · intro p hp
          have hf := h.free p hp
          refine ⟨hf.lid, ?_, hf.proc, hf.wait⟩
          show sendList s.m.reg _ _ (broadcast s.m s.toP) p = []
          rw [sendList_out p hp, broadcast,
            bcast_out p hp (fun lid => .newid lid (known s.m.table lid))]
          exact hf.toP
      · apply pot_stage <;> first | rfl | skip
        · show s.m.stage < 1; omega
        · show 1 ≤ 2; decide
  · have hlen := h.all h0
    by_cases h1 : s.m.stage = 1
    · by_cases hr : s.m.readyPeers + 1 = N
      · right
        have hms : s.m.mystate = .ready := by
          rw [h.mystate, if_neg (by omega), if_pos hr]
        have hall : ∀ i, i ∈ List.range s.m.reg.length → s.m.st (i + 1) = .ready := by
          have hc := h.count
          have : (List.range s.m.reg.length).countP (fun i => decide (s.m.st (i + 1) = .ready))
              = (List.range s.m.reg.length).length := by
            rw [← hc, List.length_range]; omega
          intro i hi
          have := List.countP_eq_length.1 this i hi
          simpa using this
        have hany : (List.range' 1 s.m.reg.length).any (fun i => s.m.st i ≠ .ready) = false := by
          rw [List.any_eq_false]
          intro i hi
          have hi' := (hrng i).1 hi
          have := hall (i - 1) (List.mem_range.2 (by omega))
          rw [Nat.sub_add_cancel hi'.1] at this
          simp [this]
        refine ⟨{ s with
          m := { s.m with stage := 2 }
          toP := sendList s.m.reg (fun _ => some .phase) (List.range' 1 s.m.reg.length) s.toP },
          ?_, ?_, ?_⟩
        · unfold mainStep
          simp only [h1, hms, hr, hany]
          simp
        · refine ⟨h.nodup, h.lt, h.len, h.peers, h.count, h.mystate, fun _ => hlen, fun _ => hr,
            ?_, h.table, ?_, ?_, h.hreg, h.hmem⟩
          · show 2 ≤ 2; decide
          · intro j p hj
            have hu := h.used j p hj
            have hjl : j < s.m.reg.length := (List.getElem?_eq_some_iff.1 hj).1
            have hjN : j + 1 < N := by omega
            refine ⟨hu.lid, ?_, hu.toM, hu.rdy, ?_, ?_⟩
            · obtain ⟨k, a, b, c⟩ := hu.at_
              rw [h1] at a c
              have a1 : k ≤ N + 1 := by simpa [avail] using a
              refine ⟨k, by show k ≤ N + 2; omega, b, ?_⟩
              show sendList s.m.reg (fun _ => some .phase) (List.range' 1 s.m.reg.length)
                s.toP p = ((full N (entry mw who s.m.reg) (j + 1)).take (N + 2)).drop k
              have hc : s.toP p = ((full N (entry mw who s.m.reg) (j + 1)).take (N + 1)).drop k := by
                simpa [avail] using c
              rw [sendList_at h.nodup j p hj _ _ _ List.nodup_range'
                  (fun t ht => ((hrng t).1 ht).1), if_pos ((hrng _).2 (by omega)), hc,
                full_last N _ hjN,
                List.drop_append_of_le_length (by rw [List.length_take, full_length hjN]; omega)]
              rfl
            · intro hc; cases hc
            · intro _; exact hu.mst1 h0
          · intro p hp
            have hf := h.free p hp
            refine ⟨hf.lid, ?_, hf.proc, hf.wait⟩
            show sendList s.m.reg _ _ s.toP p = []
            rw [sendList_out p hp]
            exact hf.toP
        · apply pot_stage <;> first | rfl | skip
          · show s.m.stage < 2; omega
          · show 2 ≤ 2; decide
      · left
        have hms : s.m.mystate = .inStartup2 := by
          rw [h.mystate, if_neg (by omega), if_neg hr]
        simp [mainStep, h1, hms]
    · left
      simp [mainStep, h0, h1]

theorem Inv_step {N P : Nat} (hN : 2 ≤ N) (hmax : N ≤ maxPeers) {mw : Who}
    {who : Nat → Who} (hs : ∀ p, p < P → (who p).host.length ≤ 30)
    {H : List Nat} {s : Sys} (h : Inv N P mw who H s) (e : Ev) :
    Good N P mw who (hear e H) s (step N e s) := by
  cases e with
  | master p => exact Inv_master hN hmax hs h p
  | main => exact Inv_main hN h
  | peer p => exact Inv_peer hN hmax h p

theorem Inv_run {N P : Nat} (hN : 2 ≤ N) (hmax : N ≤ maxPeers) {mw : Who}
    {who : Nat → Who} (hs : ∀ p, p < P → (who p).host.length ≤ 30) :
    ∀ (es : List Ev) {H : List Nat} {s : Sys}, Inv N P mw who H s →
      run N es s = .error .idle ∨ ∃ s', run N es s = .ok s' ∧ Inv N P mw who (heard es H) s' ∧
        pot N P s' + es.length ≤ pot N P s
  | [], H, s, h => Or.inr ⟨s, rfl, h, Nat.le_refl _⟩
  | e :: es, H, s, h => by
    rcases Inv_step hN hmax hs h e with h1 | ⟨s1, h1, h2, h3⟩
    · left; simp [run, h1]
    · rcases Inv_run hN hmax hs es h2 with h4 | ⟨s2, h4, h5, h6⟩
      · left; simp [run, h1, h4]
      · refine Or.inr ⟨s2, by simp [run, h1, h4], heard_cons e es H ▸ h5, ?_⟩
        simp only [List.length_cons]
        omega

theorem gotId_ne_idle (new : Bool) (lid : Nat) (w : Who) (c : Proc) :
    gotId new lid w c ≠ .error .idle := by
  unfold gotId
  by_cases h : maxPeers ≤ lid
  · rw [if_pos h]; simp
  · rw [if_neg h]
    cases hl : c.mylid with
    | none => dsimp only; split_ifs <;> simp
    | some l => dsimp only; split_ifs <;> simp

theorem recv_ne_idle (m : Msg) (c : Proc) : recv m c ≠ .error .idle := by
  cases m with
  | id lid w =>
    have := gotId_ne_idle false lid w c
    simp only [recv]
    cases hg : gotId false lid w c with
    | error b =>
      rw [hg] at this
      simp only [Except.map]
      intro hc
      injection hc with hc
      exact this (by rw [hc])
    | ok c => simp [Except.map]
  | newid lid w =>
    have := gotId_ne_idle true lid w c
    simp only [recv]
    cases hg : gotId true lid w c with
    | error b =>
      rw [hg] at this
      simp only [Except.map]
      intro hc
      injection hc with hc
      exact this (by rw [hc])
    | ok c => simp [Except.map]
  | _ => simp [recv]

/-- Nothing more can happen only when everybody is done. -/
theorem progress {N P : Nat} (hN : 2 ≤ N) (hP : N ≤ P + 1) {mw : Who} {who : Nat → Who}
    {H : List Nat} {s : Sys} (h : Inv N P mw who H s)
    (hidle : ∀ e, step N e s = .error .idle) :
    s.m.stage = 2 ∧ ∀ p ∈ s.m.reg, left (s.proc p) = true := by
  have hP0 : ∀ p, s.toP p = [] := by
    intro p
    have := hidle (.peer p)
    cases hq : s.toP p with
    | nil => rfl
    | cons m ms =>
      simp only [step, peerStep, hq] at this
      cases hr : recv m (s.proc p) with
      | error b =>
        exfalso
        rw [hr] at this
        simp only at this
        have e2 : b = .idle := by injection this
        subst e2
        exact recv_ne_idle _ _ hr
      | ok x =>
        obtain ⟨c, out⟩ := x
        rw [hr] at this
        cases this
  have hM0 : ∀ p, s.toM p = [] := by
    intro p
    have := hidle (.master p)
    cases hq : s.toM p with
    | nil => rfl
    | cons m ms =>
      simp only [step, masterStep, hq] at this
      cases m with
      | register w =>
        simp only [gotRegister] at this
        split_ifs at this <;> cases this
      | _ => cases this
  have hmain := hidle .main
  simp only [step] at hmain
  -- everybody is registered or waits
  have hlen : s.m.reg.length + 1 = N := by
    by_contra hc
    have hl : s.m.reg.length + 1 < N := by have := h.len; omega
    have hsub : List.range P ⊆ s.m.reg := by
      intro p hp
      by_contra hpr
      have hpP := List.mem_range.1 hp
      rcases (h.free p hpr).wait with ⟨_, hm⟩ | ⟨_, _, hx, _⟩
      · rw [hM0 p, if_pos hpP] at hm; cases hm
      · omega
    have := (List.nodup_range (n := P).subperm hsub).length_le
    simp at this
    omega
  have hkk : ∀ j p, s.m.reg[j]? = some p → ∃ k, k = avail N s.m.stage ∧
      At N (entry mw who s.m.reg) (j + 1) (who p) k (s.proc p) := by
    intro j p hj
    obtain ⟨k, a, b, c⟩ := (h.used j p hj).at_
    refine ⟨k, ?_, b⟩
    have hjl : j < s.m.reg.length := (List.getElem?_eq_some_iff.1 hj).1
    have hjN : j + 1 < N := by omega
    rw [hP0 p] at c
    have := congrArg List.length c
    rw [List.length_drop, List.length_take, full_length hjN] at this
    have hav : avail N s.m.stage ≤ N + 2 := by unfold avail; split_ifs <;> omega
    simp only [List.length_nil] at this
    omega
  have hany : ∀ (x : PS), s.m.stage = 0 ∨ s.m.stage = 1 ∨ s.m.stage = 2 := by
    intro _; have := h.stage; omega
  rcases hany .ready with h0 | h1 | h2
  · exfalso
    rcases Inv_main hN h with hx | ⟨s', hx, _⟩
    · have hrp : s.m.readyPeers = 0 := by
        rw [h.count, List.countP_eq_zero]
        intro i hi
        have hi' : i < s.m.reg.length := List.mem_range.1 hi
        have := (h.used i _ (List.getElem?_eq_getElem hi')).mst0 h0
        simp [this]
      have hms : s.m.mystate = .inStartup2 := by
        rw [h.mystate, if_neg (by omega), if_neg (by omega)]
      unfold mainStep at hx
      simp only [h0, hms] at hx
      simp only [if_true] at hx
      split_ifs at hx <;> cases hx <;> simp_all
    · rw [hx] at hmain; cases hmain
  · exfalso
    have hrp : s.m.readyPeers + 1 = N := by
      rw [h.count]
      have : (List.range s.m.reg.length).countP (fun i => decide (s.m.st (i + 1) = .ready))
          = (List.range s.m.reg.length).length := by
        rw [List.countP_eq_length]
        intro i hi
        have hi' : i < s.m.reg.length := List.mem_range.1 hi
        have hj := List.getElem?_eq_getElem hi'
        have hu := h.used i _ hj
        obtain ⟨k, e, hat⟩ := hkk i _ hj
        have hk : k = N + 1 := by rw [e, h1]; rfl
        have hr := (ready_full hat).2 (by omega)
        have htm := hu.toM
        rw [hM0] at htm
        by_contra hnr
        have hnr' : s.m.st (i + 1) ≠ .ready := by simpa using hnr
        rw [if_pos ⟨hr, hnr'⟩] at htm
        cases htm
      rw [this, List.length_range]
      exact hlen
    have hms : s.m.mystate = .ready := by
      rw [h.mystate, if_neg (by omega), if_pos hrp]
    unfold mainStep at hmain
    simp only [h1, hms] at hmain
    split_ifs at hmain <;> simp_all
  · refine ⟨h2, ?_⟩
    intro p hp
    obtain ⟨i, hi, hip⟩ := List.getElem_of_mem hp
    have hi' : s.m.reg[i]? = some p := by rw [← hip]; simp
    obtain ⟨k, e, hat⟩ := hkk i p hi'
    have hk : k = N + 2 := by rw [e, h2]; rfl
    have hr := (ready_full hat).2 (by omega)
    have hph := hat.phase
    simp [left, hr, hph, hk]

end Laik.Su
