import Verif.Model.TcpSync
import Verif.Model.ProgSim
import Verif.Model.CollRun
import Verif.Model.CollSplit
/-!
# Events of a synchronization of key-value stores with the TCP backend based on GLib
-/

namespace Laik.Ts

open Laik.Mm Function

variable {S : Comm → Prop} {c : Comm} {q : List KEnt → List KEnt}

/-! ### encoding -/

/-- Changes which can be sent as `int` and `char`. -/
structure Fits (off : List Nat) (data : Bytes) : Prop where
  nOff : off.length < 2 ^ 31
  nData : data.length < 2 ^ 31
  off : ∀ o ∈ off, o < 2 ^ 31
  data : ∀ b ∈ data, b < 256

theorem countB_length (n m : Nat) : (countB n m).length = 8 := by simp [countB, leN_length]

theorem unle4 {n : Nat} (h : n < 2 ^ 31) : unle (leN 4 n) = n := by
  rw [unle_leN]
  omega

theorem countB_fst {n : Nat} (h : n < 2 ^ 31) (m : Nat) : unle ((countB n m).take 4) = n := by
  rw [countB, List.take_left' (leN_length 4 n), unle4 h]

theorem countB_snd (n : Nat) {m : Nat} (h : m < 2 ^ 31) : unle ((countB n m).drop 4) = m := by
  rw [countB, List.drop_left' (leN_length 4 n), unle4 h]

theorem offB_length (off : List Nat) : (offB off).length = 4 * off.length := by
  induction off with
  | nil => rfl
  | cons o off ih =>
    simp only [offB, List.flatMap_cons, List.length_append, leN_length, List.length_cons] at ih ⊢
    omega

theorem dataB_length (data : Bytes) : (dataB data).length = data.length := by simp [dataB]

theorem unOff_offB {off : List Nat} (h : ∀ o ∈ off, o < 2 ^ 31) : unOff (offB off) = off := by
  induction off with
  | nil => rfl
  | cons o off ih =>
    have e : unle (leN 4 o) = o := unle4 (h o (by simp))
    have e2 := ih fun x hx => h x (List.mem_cons_of_mem _ hx)
    simp only [offB, List.flatMap_cons, leN, List.cons_append, List.nil_append, unOff] at e e2 ⊢
    rw [e, e2]

theorem unData_dataB {data : Bytes} (h : ∀ b ∈ data, b < 256) : unData (dataB data) = data := by
  induction data with
  | nil => rfl
  | cons b data ih =>
    have := h b (by simp)
    have e2 := ih fun x hx => h x (List.mem_cons_of_mem _ hx)
    simp only [unData, dataB, List.map_cons] at e2 ⊢
    rw [e2]
    congr 1
    simp only [UInt8.toNat_ofNat']
    omega

/-! ### events with known messages -/

/-- A message with known content. -/
def msg (X : Chan) (b : Body) : Ev KVS := .tr X false (fun _ => b) fun s b' => if b' = b then some s else none

/-- The new store of a process. -/
def put (p : Nat) (t : KVS) : Ev KVS := .loc p fun _ => some t

theorem le_send {X : Chan} {p : Nat} {b : Body} {es : List (Ev KVS)} {s : KVS} {k : Prog KVS} (h : X.src = some p)
    (hk : Le (proj p es s) k) : Le (proj p (msg X b :: es) s) (.send ⟨X.c, X.s, X.ty, X.r, X.tag, b⟩ k) := by
  simp only [msg, proj, if_pos h, Bool.false_eq_true, if_false]
  exact .send _ hk

theorem le_recv {X : Chan} {p : Nat} {b : Body} {es : List (Ev KVS)} {s : KVS} {k : Body → Prog KVS} (h : X.dst = some p)
    (h' : X.src ≠ some p) (hk : Le (proj p es s) (k b)) :
    Le (proj p (msg X b :: es) s) (.recv ⟨X.c, X.r, X.ty, X.s, X.tag⟩ k) := by
  simp only [msg, proj, if_neg h', if_pos h]
  refine .recv _ fun b' => ?_
  by_cases e : b' = b
  · subst e
    simpa using hk
  · simp only [if_neg e]
    exact .err _

theorem proj_skip {X : Chan} {p : Nat} {b : Body} {es : List (Ev KVS)} {s : KVS} (h : X.src ≠ some p) (h' : X.dst ≠ some p) :
    proj p (msg X b :: es) s = proj p es s := by
  simp only [msg, proj, if_neg h, if_neg h']

/-- Changes sent from rank `i` to rank `j`. -/
def jmsgs (c : Comm) (i j : Nat) (off : List Nat) (data : Bytes) : List (Ev KVS) :=
  let X : Chan := ⟨c, tSendRecv, i, j, 0⟩
  msg X (countB off.length data.length) ::
    if off.length = 0 then [] else [msg X (offB off), msg X (dataB data)]

theorem jmsgs_skip {i j p : Nat} {off : List Nat} {data : Bytes} {es : List (Ev KVS)} {s : KVS} (hi : c.tasks[i]? ≠ some p)
    (hj : c.tasks[j]? ≠ some p) : proj p (jmsgs c i j off data ++ es) s = proj p es s := by
  have e : ∀ b es, proj p (msg ⟨c, tSendRecv, i, j, 0⟩ b :: es) s = proj p es s := fun b es => proj_skip hi hj
  unfold jmsgs
  by_cases h0 : off.length = 0
  · simp only [if_pos h0, List.cons_append, List.nil_append, e]
  · simp only [if_neg h0, List.cons_append, List.nil_append, e]

theorem jmsgs_wf {i j : Nat} {off : List Nat} {data : Bytes} {es : List (Ev KVS)} (hc : S c) (hi : i < c.tasks.length)
    (hj : j < c.tasks.length) (hn : i ≠ j) (h : WF S none es) : WF S none (jmsgs c i j off data ++ es) := by
  have hX : (⟨c, tSendRecv, i, j, 0⟩ : Chan).Valid S := ⟨hc, hi, hj, hn⟩
  unfold jmsgs
  by_cases h0 : off.length = 0
  · simp only [if_pos h0, List.cons_append, List.nil_append]
    exact ⟨hX, h⟩
  · simp only [if_neg h0, List.cons_append, List.nil_append]
    exact ⟨hX, hX, hX, h⟩

theorem run_msg {i j : Nat} {b : Body} {es : List (Ev KVS)} {st : Nat → KVS} (hi : i < c.tasks.length) (hj : j < c.tasks.length) :
    run (msg ⟨c, tSendRecv, i, j, 0⟩ b :: es) st = run es st := by
  have e1 : (⟨c, tSendRecv, i, j, 0⟩ : Chan).src = some c.tasks[i] := by simp [Chan.src, hi]
  have e2 : (⟨c, tSendRecv, i, j, 0⟩ : Chan).dst = some c.tasks[j] := by simp [Chan.dst, hj]
  simp [run, msg, Ev.step, e1, e2]

theorem run_jmsgs {i j : Nat} {off : List Nat} {data : Bytes} {es : List (Ev KVS)} {st : Nat → KVS} (hi : i < c.tasks.length)
    (hj : j < c.tasks.length) : run (jmsgs c i j off data ++ es) st = run es st := by
  unfold jmsgs
  by_cases h0 : off.length = 0
  · simp only [if_pos h0, List.cons_append, List.nil_append, run_msg hi hj]
  · simp only [if_neg h0, List.cons_append, List.nil_append, run_msg hi hj]

/-! ### process 0 -/

/-- Changes sent to process 0 by processes from rank `i`. -/
def gatherE (c : Comm) : Nat → List (List Nat × Bytes) → List (Ev KVS)
  | _, [] => []
  | i, j :: js => jmsgs c i 0 j.1 j.2 ++ gatherE c (i + 1) js

/-- Changes sent by process 0 to `n` processes from rank `i`. -/
def spreadE (c : Comm) (off : List Nat) (data : Bytes) : (n i : Nat) → List (Ev KVS)
  | 0, _ => []
  | n + 1, i => jmsgs c 0 i off data ++ spreadE c off data n (i + 1)

/-- New stores of processes from rank `i`. -/
def putE (c : Comm) : Nat → List KVS → List (Ev KVS)
  | _, [] => []
  | i, t :: ts => put (c.proc i) t :: putE c (i + 1) ts

theorem le_recvCount {i j n m : Nat} {es : List (Ev KVS)} {s : KVS} {k : Nat → Nat → Prog KVS} (hnd : c.tasks.Nodup)
    (hi : i < c.tasks.length) (hj : j < c.tasks.length) (hij : i ≠ j) (hn : n < 2 ^ 31) (hm : m < 2 ^ 31)
    (hk : Le (proj (c.proc j) es s) (k n m)) :
    Le (proj (c.proc j) (msg ⟨c, tSendRecv, i, j, 0⟩ (countB n m) :: es) s) (recvCount c j i k) := by
  refine le_recv (Comm.getElem?_proc hj) (fun e => hij (rank_inj hnd e (Comm.getElem?_proc hj))) ?_
  rw [if_pos (countB_length n m)]
  simp only [countB_fst hn, countB_snd n hm]
  rw [if_pos ⟨hn, hm⟩]
  exact hk

theorem le_recvP {i j n : Nat} {b : Body} {es : List (Ev KVS)} {s : KVS} {k : Body → Prog KVS} (hnd : c.tasks.Nodup)
    (hi : i < c.tasks.length) (hj : j < c.tasks.length) (hij : i ≠ j) (hn : b.length = n)
    (hk : Le (proj (c.proc j) es s) (k b)) :
    Le (proj (c.proc j) (msg ⟨c, tSendRecv, i, j, 0⟩ b :: es) s) (recvP c j i n k) := by
  refine le_recv (Comm.getElem?_proc hj) (fun e => hij (rank_inj hnd e (Comm.getElem?_proc hj))) ?_
  rw [if_pos hn]
  exact hk

theorem le_gather (hnd : c.tasks.Nodup) {es : List (Ev KVS)} {s : KVS} {k : Changes → Prog KVS} {d : Changes}
    (hk : Le (proj (c.proc 0) es s) (k d)) : ∀ (js : List (List Nat × Bytes)) (i : Nat) (src dst recvd : Changes),
    0 < i → i + js.length ≤ c.tasks.length → (∀ j ∈ js, Fits j.1 j.2) → syncLoop q js src dst recvd = some d →
    Le (proj (c.proc 0) (gatherE c i js ++ es) s) (gatherP q c js.length i src dst recvd k)
  | [], i, src, dst, recvd, _, _, _, h => by
    rw [syncLoop] at h
    cases h
    exact hk
  | (off, data) :: js, i, src, dst, recvd, hi, hl, hf, h => by
    have hfj := hf _ (List.mem_cons_self ..)
    have hf' : ∀ j ∈ js, Fits j.1 j.2 := fun j hj => hf j (List.mem_cons_of_mem _ hj)
    rw [List.length_cons] at hl
    have hi1 : i < c.tasks.length := by omega
    have h01 : 0 < c.tasks.length := by omega
    have hne : i ≠ 0 := by omega
    simp only [syncLoop, Option.bind_eq_bind, Option.bind_eq_some_iff] at h
    obtain ⟨r1, h1, r2, h2, h⟩ := h
    simp only [gatherE, jmsgs, List.length_cons, gatherP, List.cons_append]
    refine le_recvCount hnd hi1 h01 hne hfj.nOff hfj.nData ?_
    simp only [h1, Option.bind_some, h2, orErr]
    by_cases h0 : off.length = 0
    · rw [if_pos h0] at h
      simp only [if_pos h0, List.nil_append]
      by_cases h3 : data.length = 0
      · rw [if_pos h3] at h ⊢
        exact le_gather hnd hk js (i + 1) src dst r2 (by omega) (by omega) hf' h
      · rw [if_neg h3] at h
        cases h
    · rw [if_neg h0] at h
      simp only [if_neg h0, List.cons_append, List.nil_append]
      by_cases h3 : 0 < data.length
      · rw [if_pos h3] at h ⊢
        simp only [Option.bind_eq_some_iff] at h
        obtain ⟨r3, h4, r4, h5, m, h6, h⟩ := h
        refine le_recvP hnd hi1 h01 hne (offB_length off) ?_
        refine le_recvP hnd hi1 h01 hne (dataB_length data) ?_
        rw [unOff_offB hfj.off, unData_dataB hfj.data, h4, Option.bind_some, h5]
        simp only [h6]
        exact le_gather hnd hk js (i + 1) dst m r4 (by omega) (by omega) hf' h
      · rw [if_neg h3] at h
        cases h

theorem le_spread {es : List (Ev KVS)} {s : KVS} {k : Prog KVS} {off : List Nat} {data : Bytes} (h0 : 0 < c.tasks.length)
    (hk : Le (proj (c.proc 0) es s) k) : ∀ (n i : Nat),
    Le (proj (c.proc 0) (spreadE c off data n i ++ es) s) (spreadP c off data n i k)
  | 0, i => hk
  | n + 1, i => by
    have hs : (⟨c, tSendRecv, 0, i, 0⟩ : Chan).src = some (c.proc 0) := Comm.getElem?_proc h0
    have ih := le_spread h0 hk (off := off) (data := data) n (i + 1)
    simp only [spreadE, jmsgs, spreadP, List.cons_append]
    refine le_send hs ?_
    by_cases e : off.length = 0
    · simp only [if_pos e, List.nil_append]
      exact ih
    · simp only [if_neg e, List.cons_append, List.nil_append]
      exact le_send hs (le_send hs ih)

/-! ### other processes -/

theorem gather_skip {es : List (Ev KVS)} {s : KVS} {p : Nat} (h0 : c.tasks[0]? ≠ some p) : ∀ (js : List (List Nat × Bytes)) (i : Nat),
    (∀ r, i ≤ r → r < i + js.length → c.tasks[r]? ≠ some p) → proj p (gatherE c i js ++ es) s = proj p es s
  | [], _, _ => rfl
  | j :: js, i, h => by
    rw [List.length_cons] at h
    rw [gatherE, List.append_assoc, jmsgs_skip (h i (by omega) (by omega)) h0]
    exact gather_skip h0 js (i + 1) fun r h1 h2 => h r (by omega) (by omega)

theorem spread_skip {es : List (Ev KVS)} {s : KVS} {p : Nat} {off : List Nat} {data : Bytes} (h0 : c.tasks[0]? ≠ some p) : ∀ (n i : Nat),
    (∀ r, i ≤ r → r < i + n → c.tasks[r]? ≠ some p) → proj p (spreadE c off data n i ++ es) s = proj p es s
  | 0, _, _ => rfl
  | n + 1, i, h => by
    rw [spreadE, List.append_assoc, jmsgs_skip h0 (h i (by omega) (by omega))]
    exact spread_skip h0 n (i + 1) fun r h1 h2 => h r (by omega) (by omega)

theorem put_skip {es : List (Ev KVS)} {s : KVS} {p : Nat} : ∀ (ts : List KVS) (i : Nat),
    (∀ r, i ≤ r → r < i + ts.length → c.proc r ≠ p) → proj p (putE c i ts ++ es) s = proj p es s
  | [], _, _ => rfl
  | t :: ts, i, h => by
    rw [List.length_cons] at h
    simp only [putE, put, List.cons_append, proj, if_neg (h i (by omega) (by omega))]
    exact put_skip ts (i + 1) fun r h1 h2 => h r (by omega) (by omega)

theorem put_at (hnd : c.tasks.Nodup) {es : List (Ev KVS)} {s t : KVS} {r : Nat} (hr : r < c.tasks.length) :
    ∀ (ts : List KVS) (i : Nat), i + ts.length ≤ c.tasks.length → i ≤ r → ts[r - i]? = some t →
    proj (c.proc r) (putE c i ts ++ es) s = proj (c.proc r) es t
  | [], _, _, _, h => by simp at h
  | u :: ts, i, hl, hi, h => by
    rw [List.length_cons] at hl
    simp only [putE, put, List.cons_append, proj]
    by_cases e : i = r
    · subst e
      simp only [Nat.sub_self, List.getElem?_cons_zero, Option.some.injEq] at h
      subst h
      rw [if_pos rfl]
      exact put_skip ts (i + 1) fun r' h1 h2 e => by
        have := Comm.proc_inj hnd (by omega) hr e
        omega
    · rw [if_neg fun h => e (Comm.proc_inj hnd (by omega) hr h)]
      refine put_at hnd hr ts (i + 1) (by omega) (by omega) ?_
      rw [← h, show r - i = (r - (i + 1)) + 1 by omega, List.getElem?_cons_succ]

theorem ne_proc (hnd : c.tasks.Nodup) {r r' : Nat} (hr : r < c.tasks.length) (h : r' ≠ r) : c.tasks[r']? ≠ some (c.proc r) :=
  fun e => h (rank_inj hnd e (Comm.getElem?_proc hr))

/-- What process `r` sends. -/
def sendJ (c : Comm) (r : Nat) (off : List Nat) (data : Bytes) (k : Prog KVS) : Prog KVS :=
  sendP c r 0 (countB off.length data.length) <|
    if off.length = 0 then k else sendP c r 0 (offB off) <| sendP c r 0 (dataB data) k

theorem gather_at (hnd : c.tasks.Nodup) {es : List (Ev KVS)} {s : KVS} {r : Nat} {off : List Nat} {data : Bytes} {k : Prog KVS}
    (hr : r < c.tasks.length) (h0 : 0 < r) (hk : Le (proj (c.proc r) es s) k) : ∀ (js : List (List Nat × Bytes)) (i : Nat),
    i + js.length ≤ c.tasks.length → i ≤ r → js[r - i]? = some (off, data) →
    Le (proj (c.proc r) (gatherE c i js ++ es) s) (sendJ c r off data k)
  | [], _, _, _, h => by simp at h
  | j :: js, i, hl, hi, h => by
    rw [List.length_cons] at hl
    rw [gatherE, List.append_assoc]
    by_cases e : i = r
    · subst e
      simp only [Nat.sub_self, List.getElem?_cons_zero, Option.some.injEq] at h
      subst h
      have hs : (⟨c, tSendRecv, i, 0, 0⟩ : Chan).src = some (c.proc i) := Comm.getElem?_proc hr
      have hk' : Le (proj (c.proc i) (gatherE c (i + 1) js ++ es) s) k := by
        rw [gather_skip (ne_proc hnd hr (by omega)) js (i + 1) fun r' h1 h2 => ne_proc hnd hr (by omega)]
        exact hk
      simp only [jmsgs, sendJ, List.cons_append]
      refine le_send hs ?_
      by_cases e : off.length = 0
      · simp only [if_pos e, List.nil_append]
        exact hk'
      · simp only [if_neg e, List.cons_append, List.nil_append]
        exact le_send hs (le_send hs hk')
    · rw [jmsgs_skip (ne_proc hnd hr e) (ne_proc hnd hr (by omega))]
      refine gather_at hnd hr h0 hk js (i + 1) (by omega) (by omega) ?_
      rw [← h, show r - i = (r - (i + 1)) + 1 by omega, List.getElem?_cons_succ]

theorem spread_at (hnd : c.tasks.Nodup) {es : List (Ev KVS)} {x s s' : KVS} {r : Nat} {off : List Nat} {data : Bytes} {k : KVS → Prog KVS}
    (hr : r < c.tasks.length) (h0 : 0 < r) (hf : Fits off data) (hs : syncRecv s off data = some s')
    (hk : Le (proj (c.proc r) es x) (k s')) : ∀ (n i : Nat),
    i + n ≤ c.tasks.length → i ≤ r → r < i + n → Le (proj (c.proc r) (spreadE c off data n i ++ es) x) (clientRecv c r s k)
  | 0, _, _, h1, h2 => by omega
  | n + 1, i, hl, hi, h => by
    rw [spreadE, List.append_assoc]
    by_cases e : i = r
    · subst e
      have hk' : Le (proj (c.proc i) (spreadE c off data n (i + 1) ++ es) x) (k s') := by
        rw [spread_skip (ne_proc hnd hr (by omega)) n (i + 1) fun r' h1 h2 => ne_proc hnd hr (by omega)]
        exact hk
      have hp : 0 < c.tasks.length := by omega
      have hne : 0 ≠ i := by omega
      simp only [jmsgs, clientRecv, List.cons_append]
      refine le_recvCount hnd hp hr hne hf.nOff hf.nData ?_
      unfold syncRecv at hs
      by_cases e : 0 < off.length
      · rw [if_pos e] at hs ⊢
        simp only [if_neg (show ¬ off.length = 0 by omega), List.cons_append, List.nil_append]
        by_cases e2 : 0 < data.length
        · rw [if_pos e2] at hs ⊢
          simp only [Option.bind_eq_bind, Option.bind_eq_some_iff] at hs
          obtain ⟨c1, h1, c2, h2, h3⟩ := hs
          simp only [h1, orErr]
          refine le_recvP hnd hp hr hne (offB_length off) ?_
          refine le_recvP hnd hp hr hne (dataB_length data) ?_
          rw [unOff_offB hf.off, unData_dataB hf.data, h2, Option.bind_some, h3]
          exact hk'
        · rw [if_neg e2] at hs
          cases hs
      · rw [if_neg e] at hs ⊢
        simp only [if_pos (show off.length = 0 by omega), List.nil_append]
        by_cases e2 : data.length = 0
        · rw [if_pos e2] at hs ⊢
          cases hs
          exact hk'
        · rw [if_neg e2] at hs
          cases hs
    · rw [jmsgs_skip (ne_proc hnd hr (by omega)) (ne_proc hnd hr e)]
      exact spread_at hnd hr h0 hf hs hk n (i + 1) (by omega) (by omega) (by omega)

/-! ### all events -/

theorem gather_wf (hc : S c) (h0 : 0 < c.tasks.length) {es : List (Ev KVS)} (h : WF S none es) : ∀ (js : List (List Nat × Bytes)) (i : Nat),
    0 < i → i + js.length ≤ c.tasks.length → WF S none (gatherE c i js ++ es)
  | [], _, _, _ => h
  | j :: js, i, hi, hl => by
    rw [List.length_cons] at hl
    rw [gatherE, List.append_assoc]
    exact jmsgs_wf hc (by omega) h0 (by omega) (gather_wf hc h0 h js (i + 1) (by omega) (by omega))

theorem spread_wf (hc : S c) (h0 : 0 < c.tasks.length) {off : List Nat} {data : Bytes} {es : List (Ev KVS)} (h : WF S none es) : ∀ (n i : Nat),
    0 < i → i + n ≤ c.tasks.length → WF S none (spreadE c off data n i ++ es)
  | 0, _, _, _ => h
  | n + 1, i, hi, hl => by
    rw [spreadE, List.append_assoc]
    exact jmsgs_wf hc h0 (by omega) (by omega) (spread_wf hc h0 h n (i + 1) (by omega) (by omega))

theorem put_wf {es : List (Ev KVS)} (h : WF S none es) : ∀ (ts : List KVS) (i : Nat), WF S none (putE c i ts ++ es)
  | [], _ => h
  | _ :: ts, i => put_wf h ts (i + 1)

theorem run_gather (h0 : 0 < c.tasks.length) {es : List (Ev KVS)} {st : Nat → KVS} : ∀ (js : List (List Nat × Bytes)) (i : Nat),
    i + js.length ≤ c.tasks.length → run (gatherE c i js ++ es) st = run es st
  | [], _, _ => rfl
  | j :: js, i, hl => by
    rw [List.length_cons] at hl
    rw [gatherE, List.append_assoc, run_jmsgs (by omega) h0]
    exact run_gather h0 js (i + 1) (by omega)

theorem run_spread (h0 : 0 < c.tasks.length) {off : List Nat} {data : Bytes} {es : List (Ev KVS)} {st : Nat → KVS} : ∀ (n i : Nat),
    i + n ≤ c.tasks.length → run (spreadE c off data n i ++ es) st = run es st
  | 0, _, _ => rfl
  | n + 1, i, hl => by
    rw [spreadE, List.append_assoc, run_jmsgs h0 (by omega)]
    exact run_spread h0 n (i + 1) (by omega)

theorem run_put (hnd : c.tasks.Nodup) {es : List (Ev KVS)} : ∀ (ts : List KVS) (i : Nat) (st : Nat → KVS), i + ts.length ≤ c.tasks.length →
    ∃ st', run (putE c i ts ++ es) st = run es st' ∧ (∀ j (h : j < ts.length), st' (c.proc (i + j)) = ts[j]) ∧
      ∀ r, r < i → r < c.tasks.length → st' (c.proc r) = st (c.proc r)
  | [], i, st, _ => ⟨st, rfl, fun j h => (Nat.not_lt_zero _ h).elim, fun _ _ _ => rfl⟩
  | t :: ts, i, st, hl => by
    rw [List.length_cons] at hl
    obtain ⟨st', h1, h2, h3⟩ := run_put hnd (es := es) ts (i + 1) (update st (c.proc i) t) (by omega)
    refine ⟨st', ?_, ?_, ?_⟩
    · rw [putE, List.cons_append, run]
      simp only [put, Ev.step, Option.map_some, Option.bind_some]
      exact h1
    · intro j hj
      cases j with
      | zero =>
        rw [Nat.add_zero, h3 i (by omega) (by omega)]
        simp
      | succ j =>
        rw [show i + (j + 1) = i + 1 + j by omega, h2 j (by simpa using hj)]
        rfl
    · intro r hr hr'
      rw [h3 r (by omega) hr', update_of_ne]
      intro e
      have := Comm.proc_inj hnd hr' (by omega) e
      omega

end Laik.Ts
