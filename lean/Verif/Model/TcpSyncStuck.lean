import Verif.Model.TcpSyncRound
/-!
# A synchronization without changes with the TCP backend based on GLib
-/

namespace Laik.Ts

open Laik.Mm Function

variable {S : Comm → Prop} {c : Comm} {q : List KEnt → List KEnt} {p : Nat}

/-! ### programs use the communicator correctly -/

theorem uses_orErr {α : Type} {x : Option α} {k : α → Prog KVS} (h : ∀ a, Uses S p (k a)) : Uses S p (orErr x k) := by
  cases x with
  | none => exact .err
  | some a => exact h a

theorem uses_sendP (hc : S c) {r d : Nat} {b : Body} {k : Prog KVS} (hr : c.tasks[r]? = some p) (hd : d < c.tasks.length) (hn : d ≠ r)
    (h : Uses S p k) : Uses S p (sendP c r d b k) := .send ⟨hc, hr, hd, hn⟩ h

theorem uses_recvP (hc : S c) {r d n : Nat} {k : Body → Prog KVS} (hr : c.tasks[r]? = some p) (hd : d < c.tasks.length) (hn : d ≠ r)
    (h : ∀ b, Uses S p (k b)) : Uses S p (recvP c r d n k) := by
  refine .recv ⟨hc, hr, hd, hn⟩ fun b => ?_
  split
  · exact h b
  · exact .err

theorem uses_recvCount (hc : S c) {r d : Nat} {k : Nat → Nat → Prog KVS} (hr : c.tasks[r]? = some p) (hd : d < c.tasks.length) (hn : d ≠ r)
    (h : ∀ a b, Uses S p (k a b)) : Uses S p (recvCount c r d k) := by
  refine uses_recvP hc hr hd hn fun b => ?_
  split
  · exact h _ _
  · exact .err

theorem uses_clientRecv (hc : S c) {r : Nat} {s : KVS} {k : KVS → Prog KVS} (hr : c.tasks[r]? = some p) (h0 : 0 < r)
    (h : ∀ s, Uses S p (k s)) : Uses S p (clientRecv c r s k) := by
  have hl : 0 < c.tasks.length := by
    have := (List.getElem?_eq_some_iff.1 hr).1
    omega
  refine uses_recvCount hc hr hl (by omega) fun a b => ?_
  split
  · split
    · exact uses_orErr fun ch => uses_recvP hc hr hl (by omega) fun _ => uses_recvP hc hr hl (by omega) fun _ => uses_orErr h
    · exact .err
  · split
    · exact h s
    · exact .err

theorem uses_clientP (hc : S c) {r : Nat} {s : KVS} {k : KVS → Prog KVS} (hr : c.tasks[r]? = some p) (h0 : 0 < r)
    (h : ∀ s, Uses S p (k s)) : Uses S p (clientP c r s k) := by
  have hl : 0 < c.tasks.length := by
    have := (List.getElem?_eq_some_iff.1 hr).1
    omega
  have hn : 0 ≠ r := by omega
  have hk := uses_clientRecv (s := s) hc hr h0 h
  unfold clientP
  simp only
  split
  · refine uses_sendP hc hr hl hn ?_
    split
    · split
      · exact uses_sendP hc hr hl hn (uses_sendP hc hr hl hn hk)
      · exact .err
    · split
      · exact hk
      · exact .err
  · exact .err

theorem uses_gatherP (hc : S c) (hr : c.tasks[0]? = some p) {k : Changes → Prog KVS} (h : ∀ d, Uses S p (k d)) :
    ∀ (n i : Nat) (src dst recvd : Changes), 0 < i → i + n ≤ c.tasks.length → Uses S p (gatherP q c n i src dst recvd k)
  | 0, _, _, _, _, _, _ => h _
  | n + 1, i, src, dst, recvd, hi, hl => by
    have h1 : i < c.tasks.length := by omega
    have h2 : i ≠ 0 := by omega
    refine uses_recvCount hc hr h1 h2 fun a b => uses_orErr fun r => ?_
    split
    · split
      · exact uses_gatherP hc hr h n (i + 1) _ _ _ (by omega) (by omega)
      · exact .err
    · split
      · exact uses_recvP hc hr h1 h2 fun _ => uses_recvP hc hr h1 h2 fun _ => uses_orErr fun _ => uses_orErr fun _ =>
          uses_gatherP hc hr h n (i + 1) _ _ _ (by omega) (by omega)
      · exact .err

theorem uses_spreadP (hc : S c) (hr : c.tasks[0]? = some p) {off : List Nat} {data : Bytes} {k : Prog KVS} (h : Uses S p k) :
    ∀ (n i : Nat), 0 < i → i + n ≤ c.tasks.length → Uses S p (spreadP c off data n i k)
  | 0, _, _, _ => h
  | n + 1, i, hi, hl => by
    have h1 : i < c.tasks.length := by omega
    have h2 : i ≠ 0 := by omega
    have ih := uses_spreadP hc hr (off := off) (data := data) h n (i + 1) (by omega) (by omega)
    refine uses_sendP hc hr h1 h2 ?_
    split
    · exact ih
    · exact uses_sendP hc hr h1 h2 (uses_sendP hc hr h1 h2 ih)

theorem uses_syncP (hc : S c) {r : Nat} {s : KVS} {k : KVS → Prog KVS} (hr : c.tasks[r]? = some p)
    (h : ∀ s, Uses S p (k s)) : Uses S p (syncP q c r s k) := by
  have hl := (List.getElem?_eq_some_iff.1 hr).1
  unfold syncP
  simp only
  split
  · rename_i h0
    exact uses_clientP hc hr h0 fun s => uses_orErr h
  · rename_i h0
    obtain rfl : r = 0 := by omega
    refine uses_orErr fun own => uses_gatherP hc hr (fun d => ?_) _ _ _ _ _ (by omega) (by omega)
    split
    · exact uses_spreadP hc hr (uses_orErr fun s => uses_orErr h) _ _ (by omega) (by omega)
    · exact .err

theorem uses_roundsP (hc : S c) {r : Nat} (hr : c.tasks[r]? = some p) : ∀ (hs : List (List (Bytes × Bytes))) (s : KVS),
    Uses S p (roundsP q c r hs s)
  | [], s => .ret s
  | _ :: hs, _ => uses_orErr fun _ => uses_syncP hc hr fun s => uses_roundsP hc hr hs s

theorem uses_worldP (hc : S c) (rs : List (List (List (Bytes × Bytes)))) (p : Nat) : Uses S p (worldP q c rs p) := by
  unfold worldP
  split
  · rename_i h
    refine uses_roundsP hc ?_ _ _
    have h1 := Comm.getElem?_proc (c := c) (List.idxOf_lt_length_of_mem h)
    rwa [Comm.proc_idxOf h] at h1
  · exact .ret _

/-! ### without changes -/

/-- What is left to do, if no process has changes. -/
inductive NoCh (q : List KEnt → List KEnt) (c : Comm) : Prog KVS → Prop
  | err : NoCh q c .err
  | gather (n i : Nat) (own recvd : Changes) (k : Changes → Prog KVS) (hk : k own = .err) : NoCh q c (gatherP q c n i chInit own recvd k)
  | send (r : Nat) (s : KVS) (k : KVS → Prog KVS) (hr : 0 < r) : NoCh q c (sendP c r 0 (countB 0 0) (clientRecv c r s k))
  | wait (r : Nat) (s : KVS) (k : KVS → Prog KVS) : NoCh q c (clientRecv c r s k)

/-- State of channels, if no process has changes. -/
structure NoChI (q : List KEnt → List KEnt) (c : Comm) (u : Ideal KVS) : Prop where
  bg : ∀ p, u.bg p = []
  sent : ∀ X, ∀ b ∈ u.sent X, b = countB 0 0 ∧ X.s ≠ 0
  prog : ∀ p, NoCh q c (u.prog p) ∨ p ∉ c.tasks ∧ ∃ x, u.prog p = .ret x

theorem NoChI.step {u v : Ideal KVS} (h : NoChI q c u) (hs : IStep u v) : NoChI q c v := by
  have upd : ∀ {p k}, NoCh q c k → ∀ r, NoCh q c (update u.prog p k r) ∨ r ∉ c.tasks ∧ ∃ x, update u.prog p k r = .ret x := by
    intro p k hk r
    by_cases e : r = p
    · subst e
      simpa using Or.inl hk
    · simpa [e] using h.prog r
  cases hs with
  | send p m k hp =>
    have h1 := h.prog p
    rw [hp] at h1
    rcases h1 with h1 | ⟨-, x, h1⟩
    · generalize e : Prog.send m k = y at h1
      cases h1 with
      | err => cases e
      | gather n i own recvd kk hk =>
        cases n with
        | zero => rw [gatherP, hk] at e; cases e
        | succ n => cases e
      | send r s kk hr =>
        simp only [sendP, Prog.send.injEq] at e
        obtain ⟨rfl, rfl⟩ := e
        refine ⟨h.bg, fun X b hb => ?_, upd (.wait r s kk)⟩
        by_cases e : X = (⟨c, tSendRecv, r, 0, 0⟩ : Chan)
        · subst e
          simp only [Snd.chan, update_self, List.mem_append, List.mem_singleton] at hb
          rcases hb with hb | rfl
          · exact h.sent _ b hb
          · exact ⟨rfl, by simp only; omega⟩
        · simp only [Snd.chan, update_of_ne e] at hb
          exact h.sent X b hb
      | wait r s kk => cases e
    · cases h1
  | ssend p m k hp =>
    have h1 := h.prog p
    rw [hp] at h1
    rcases h1 with h1 | ⟨-, x, h1⟩
    · generalize e : Prog.ssend m k = y at h1
      cases h1 with
      | err => cases e
      | gather n i own recvd kk hk =>
        cases n with
        | zero => rw [gatherP, hk] at e; cases e
        | succ n => cases e
      | send r s kk hr => cases e
      | wait r s kk => cases e
    · cases h1
  | recv p m k b hp hb =>
    have h1 := h.prog p
    rw [hp] at h1
    have hb' := h.sent _ b (List.mem_of_getElem? hb)
    rcases h1 with h1 | ⟨-, x, h1⟩
    · generalize e : Prog.recv m k = y at h1
      refine ⟨h.bg, h.sent, upd ?_⟩
      cases h1 with
      | err => cases e
      | gather n i own recvd kk hk =>
        cases n with
        | zero => rw [gatherP, hk] at e; cases e
        | succ n =>
          simp only [gatherP, recvCount, recvP, Prog.recv.injEq] at e
          obtain ⟨rfl, rfl⟩ := e
          rw [hb'.1]
          have e1 : unle ((countB 0 0).take 4) = 0 := countB_fst (by decide) 0
          have e2 : unle ((countB 0 0).drop 4) = 0 := countB_snd 0 (by decide)
          simp only [countB_length, e1, e2, if_true]
          rw [if_pos (by decide)]
          generalize ((chSetSize recvd [] []).bind fun r => chEnsureSize r 0 0) = o
          cases o with
          | some r => exact .gather n (i + 1) own r kk hk
          | none => exact .err
      | send r s kk hr => cases e
      | wait r s kk =>
        simp only [clientRecv, recvCount, recvP, Prog.recv.injEq] at e
        obtain ⟨rfl, rfl⟩ := e
        exact absurd rfl hb'.2
    · cases h1
  | fork p ms k hp hb =>
    have h1 := h.prog p
    rw [hp] at h1
    rcases h1 with h1 | ⟨-, x, h1⟩
    · generalize e : Prog.fork ms k = y at h1
      cases h1 with
      | err => cases e
      | gather n i own recvd kk hk =>
        cases n with
        | zero => rw [gatherP, hk] at e; cases e
        | succ n => cases e
      | send r s kk hr => cases e
      | wait r s kk => cases e
    · cases h1
  | bg p m ms hp =>
    rw [h.bg p] at hp
    cases hp
  | join p k hp hb =>
    have h1 := h.prog p
    rw [hp] at h1
    rcases h1 with h1 | ⟨-, x, h1⟩
    · generalize e : Prog.join k = y at h1
      cases h1 with
      | err => cases e
      | gather n i own recvd kk hk =>
        cases n with
        | zero => rw [gatherP, hk] at e; cases e
        | succ n => cases e
      | send r s kk hr => cases e
      | wait r s kk => cases e
    · cases h1

theorem NoChI.steps {u v : Ideal KVS} (h : NoChI q c u) (hs : ISteps u v) : NoChI q c v := by
  induction hs with
  | refl => exact h
  | tail _ hs ih => exact ih.step hs

theorem NoChI.ret {u : Ideal KVS} (h : NoChI q c u) (hp : p ∈ c.tasks) {x : KVS} : u.prog p ≠ .ret x := by
  intro e
  have h1 := h.prog p
  rw [e] at h1
  rcases h1 with h1 | ⟨h1, -⟩
  · generalize e : Prog.ret x = y at h1
    cases h1 with
    | err => cases e
    | gather n i own recvd kk hk =>
      cases n with
      | zero => rw [gatherP, hk] at e; cases e
      | succ n => cases e
    | send r s kk hr => cases e
    | wait r s kk => cases e
  · exact h1 hp

theorem NoChI.start (n : Nat) (rs : List (List (List (Bytes × Bytes)))) : NoChI q c (Ideal.start (worldP q c (List.replicate n [] :: rs))) where
  bg _ := rfl
  sent _ b hb := by cases hb
  prog p := by
    have e : ∀ r : Nat, (List.replicate n ([] : List (Bytes × Bytes)))[r]?.getD [] = [] := by
      intro r
      rw [List.getElem?_replicate]
      split <;> rfl
    simp only [Ideal.start, worldP]
    by_cases h : p ∈ c.tasks
    · left
      rw [if_pos h]
      simp only [List.map_cons, e, roundsP, setAll, orErr]
      generalize c.tasks.idxOf p = r
      by_cases h0 : 0 < r
      · simp only [syncP, if_pos h0]
        have hs : syncSend { kvsNew with inSync := true } = some ([], []) := rfl
        rw [clientP_eq hs]
        exact .send r _ _ h0
      · simp only [syncP, if_neg h0]
        exact .gather _ _ _ _ _ rfl
    · right
      rw [if_neg h]
      exact ⟨h, kvsNew, rfl⟩

end Laik.Ts
