import Mathlib.Data.List.Perm.Subperm
import Mathlib.Algebra.Order.BigOperators.Group.List
import Verif.Model.TcpSyncEvs
import Verif.Props.KvsSync
/-!
# Rounds of synchronization with the TCP backend based on GLib
-/

namespace Laik.Ts

open Laik.Mm Function

variable {S : Comm → Prop} {c : Comm} {q : List KEnt → List KEnt} {f : Bytes → Option Bytes}

/-! ### sizes -/

/-- Bytes needed for changes. -/
def bytesOf (l : List (Bytes × Bytes)) : Nat := (l.map fun x => x.1.length + 1 + x.2.length).sum

theorem jData_bytes (l : List (Bytes × Bytes)) : (jData l).length = bytesOf l := by
  induction l with
  | nil => rfl
  | cons x l ih =>
    rw [jData_len_cons, ih, bytesOf, bytesOf, List.map_cons, List.sum_cons]

theorem jOffs_le {o : Nat} : ∀ (l : List (Bytes × Bytes)) (b : Nat), o ∈ jOffs b l → o ≤ b + (jData l).length
  | [], b, h => by simp [jOffs] at h
  | (k, v) :: l, b, h => by
    rw [jData_len_cons]
    simp only [jOffs, List.mem_cons] at h
    rcases h with h | h | h
    · simp only; omega
    · simp only; omega
    · have := jOffs_le l _ h
      simp only; omega

theorem jOff_le {o : Nat} {l : List (Bytes × Bytes)} (h : o ∈ jOff l) : o ≤ (jData l).length := by
  unfold jOff at h
  split at h
  · cases h
  · rcases List.mem_cons.1 h with h | h
    · omega
    · have := jOffs_le l 0 h
      omega

theorem bytesOf_le {l H : List (Bytes × Bytes)} (hn : (l.map (·.1)).Nodup) (hs : ∀ x ∈ l, x ∈ H) : bytesOf l ≤ bytesOf H := by
  have h1 : l.Nodup := List.Nodup.of_map _ hn
  obtain ⟨l', h2, h3⟩ := List.subperm_of_subset h1 hs
  have e : bytesOf l = bytesOf l' := (h2.symm.map _).sum_eq
  rw [e]
  exact (h3.map _).sum_le_sum (fun _ _ => Nat.zero_le _)

theorem fits_of {l H : List (Bytes × Bytes)} (hn : (l.map (·.1)).Nodup) (hs : ∀ x ∈ l, x ∈ H) (hv : ∀ x ∈ l, x.2 ≠ [])
    (hb : bytesOf H + 1 < 2 ^ 31) (h8 : ∀ x ∈ H, (∀ b ∈ x.1, b < 256) ∧ ∀ b ∈ x.2, b < 256) : Fits (jOff l) (jData l) where
  nOff := by
    have h1 := bytesOf_le hn hs
    have h2 := jData_min hv
    rw [jData_bytes] at h2
    rw [jOff_length]
    split <;> omega
  nData := by
    have h1 := bytesOf_le hn hs
    rw [jData_bytes]
    omega
  off o ho := by
    have h1 := bytesOf_le hn hs
    have h2 := jOff_le ho
    rw [jData_bytes] at h2
    omega
  data b hb := by
    unfold jData at hb
    obtain ⟨x, hx, hb⟩ := List.mem_flatMap.1 hb
    obtain ⟨h1, h2⟩ := h8 x (hs x hx)
    simp only [List.mem_append, List.mem_singleton] at hb
    rcases hb with (hb | hb) | hb
    · exact h1 b hb
    · omega
    · exact h2 b hb

/-! ### a round -/

theorem allSome_at {α : Type} : ∀ {l : List (Option α)} {r : List α}, allSome l = some r →
    l.length = r.length ∧ ∀ i : Nat, i < r.length → ∃ x, l[i]? = some (some x) ∧ r[i]? = some x
  | [], r, h => by
    cases h
    exact ⟨rfl, fun i hi => (Nat.not_lt_zero _ hi).elim⟩
  | none :: _, _, h => by cases h
  | some a :: l, r, h => by
    rw [allSome] at h
    cases h' : allSome l with
    | none => rw [h'] at h; cases h
    | some r' =>
      rw [h'] at h
      cases h
      obtain ⟨h1, h2⟩ := allSome_at h'
      refine ⟨by simp [h1], fun i hi => ?_⟩
      cases i with
      | zero => exact ⟨a, rfl, rfl⟩
      | succ i =>
        obtain ⟨x, h3, h4⟩ := h2 i (by simpa using hi)
        exact ⟨x, by simpa using h3, by simpa using h4⟩

theorem clientP_eq {r : Nat} {s : KVS} {k : KVS → Prog KVS} {off : List Nat} {data : Bytes} (h : syncSend s = some (off, data)) :
    clientP c r s k = sendJ c r off data (clientRecv c r s k) := by
  unfold syncSend at h
  by_cases hc : (s.changes.off.length = 0 ∨ s.changes.off.length % 2 = 1) ∧
      (if 0 < s.changes.off.length then 0 < s.changes.data.length else s.changes.data.length = 0)
  · simp only [if_pos hc, Option.some.injEq, Prod.mk.injEq] at h
    obtain ⟨h1, h2⟩ := hc
    obtain ⟨rfl, rfl⟩ := h
    simp only [clientP, sendJ, if_pos h1]
    by_cases e : 0 < s.changes.off.length
    · rw [if_pos e] at h2
      rw [if_pos e, if_pos h2, if_neg (show ¬ s.changes.off.length = 0 by omega)]
    · rw [if_neg e] at h2
      rw [if_neg e, if_pos h2, if_pos (show s.changes.off.length = 0 by omega)]
  · simp only [if_neg hc] at h
    cases h

/-- Data of the updates of a round can be sent. -/
def RoundFits (hs : List (List (Bytes × Bytes))) : Prop :=
  bytesOf hs.flatten + 1 < 2 ^ 31 ∧ ∀ x ∈ hs.flatten, (∀ b ∈ x.1, b < 256) ∧ ∀ b ∈ x.2, b < 256

/-- Events of a round. -/
theorem round_evs (hq : IsQsort q) (hnd : c.tasks.Nodup) (hc : S c) (h0 : 0 < c.tasks.length)
    {hs : List (List (Bytes × Bytes))} {ss : List KVS} (hl : hs.length = c.tasks.length) (hl' : ss.length = c.tasks.length)
    (hcl : ∀ s ∈ ss, Clean f s) (hok : RoundOK f hs) (hfit : RoundFits hs) :
    ∃ (E : List (Ev KVS)) (rs : List KVS), rs.length = c.tasks.length ∧ (∀ s ∈ rs, Clean (roundSpec f hs) s) ∧
      (∀ es, WF S none es → WF S none (E ++ es)) ∧
      (∀ st, ∃ st', run E st = some st' ∧ ∀ i (h : i < rs.length), st' (c.proc i) = rs[i]) ∧
      (∀ es p x, p ∉ c.tasks → proj p (E ++ es) x = proj p es x) ∧
      ∀ es x (i : Nat) h s t k, hs[i]? = some h → ss[i]? = some s → rs[i]? = some t → Le (proj (c.proc i) es t) (k t) →
        Le (proj (c.proc i) (E ++ es) x) (orErr (setAll h s) fun s => syncP q c i s k) := by
  obtain ⟨us, a1, a2, a3⟩ := setAll_world hs ss (hl.trans hl'.symm) hcl (fun h hh => hok.agree h hh h hh) hok.compat
  have hul : us.length = c.tasks.length := by rw [← hl, ← a2, List.length_map]
  match us, a1, a2, a3, hul with
  | [], _, _, _, hul => exact absurd hul.symm (by simp only [List.length_nil]; omega)
  | m :: us, a1, a2, a3, hul =>
    rw [List.length_cons] at hul
    have hok' : RoundOK f ((m :: us).map (·.1)) := by rw [a2]; exact hok
    obtain ⟨d, L, s0, r, b1, b2, b3, b4, b5, b6, b7, b8, b9, b10⟩ := kvsSync_parts hq a3 hok'
    rw [a2] at b10
    -- sizes
    have hmem : ∀ t ∈ m :: us, ∀ x ∈ t.2.1, x ∈ hs.flatten ∧ x.2 ≠ [] := by
      intro t ht x hx
      have h1 := ((a3 t ht).sub x hx).1
      have h2 : t.1 ∈ hs := by rw [← a2]; exact List.mem_map_of_mem ht
      exact ⟨List.mem_flatten.2 ⟨_, h2, h1⟩, (hok.valid _ h2 x h1).2⟩
    have hfj : ∀ j ∈ (us.map (·.2.1)).map fun j => (jOff j, jData j), Fits j.1 j.2 := by
      intro j hj
      simp only [List.map_map, List.mem_map] at hj
      obtain ⟨t, ht, rfl⟩ := hj
      have ht' : t ∈ m :: us := List.mem_cons_of_mem _ ht
      exact fits_of (a3 t ht').nodup (fun x hx => (hmem t ht' x hx).1) (fun x hx => (hmem t ht' x hx).2) hfit.1 hfit.2
    have hfd : Fits d.off d.data := by
      rw [b3, b4]
      refine fits_of b5 (fun x hx => ?_) (fun x hx => ?_) hfit.1 hfit.2
      · obtain ⟨t, ht, hx⟩ := (b6 x).1 hx
        exact (hmem t ht x hx).1
      · obtain ⟨t, ht, hx⟩ := (b6 x).1 hx
        exact (hmem t ht x hx).2
    generalize hjs : (us.map (·.2.1)).map (fun j => (jOff j, jData j)) = js at b1 b2 hfj
    have hjl : js.length = us.length := by rw [← hjs]; simp
    have hrl : (s0 :: r).length = c.tasks.length := by rw [List.length_cons, b9, hul]
    have hp : ∀ p, p ∉ c.tasks → ∀ r : Nat, c.tasks[r]? ≠ some p := fun p hp r e => hp (List.mem_of_getElem? e)
    refine ⟨gatherE c 1 js ++ (spreadE c d.off d.data us.length 1 ++ putE c 0 (s0 :: r)), s0 :: r, hrl, b10, ?_, ?_, ?_, ?_⟩
    · intro es hw
      simp only [List.append_assoc]
      exact gather_wf hc h0 (spread_wf hc h0 (put_wf hw _ _) _ _ (by omega) (by omega)) _ _ (by omega) (by omega)
    · intro st
      rw [run_gather h0 _ _ (by omega), run_spread h0 _ _ (by omega)]
      obtain ⟨st', h1, h2, -⟩ := run_put hnd (es := []) (s0 :: r) 0 st (by omega)
      rw [List.append_nil] at h1
      exact ⟨st', h1, fun i h => by rw [← h2 i h, Nat.zero_add]⟩
    · intro es p x hpt
      simp only [List.append_assoc]
      rw [gather_skip (hp p hpt 0) _ _ fun r _ _ => hp p hpt r, spread_skip (hp p hpt 0) _ _ fun r _ _ => hp p hpt r,
        put_skip _ _ fun r _ h e => hpt (by rw [← e]; exact Comm.proc_mem (by omega))]
    · intro es x i h s t k hh hs' ht hk
      have hi : i < c.tasks.length := by rw [← hl]; exact (List.getElem?_eq_some_iff.1 hh).1
      obtain ⟨g1, g2⟩ := allSome_at a1
      obtain ⟨u, g3, g4⟩ := g2 i (by simpa [hul] using hi)
      have hset : setAll h s = some u := by
        rw [List.getElem?_zipWith, hh, hs'] at g3
        exact Option.some.inj g3
      simp only [hset, orErr, List.append_assoc]
      have hput : ∀ y, Le (proj (c.proc i) (putE c 0 (s0 :: r) ++ es) y) (k t) := by
        intro y
        rw [put_at hnd hi (s0 :: r) 0 (by omega) (Nat.zero_le _) (by simpa using ht)]
        exact hk
      cases i with
      | zero =>
        simp only [List.map_cons, List.getElem?_cons_zero, Option.some.injEq] at g4 ht
        subst g4 ht
        simp only [syncP, if_neg (Nat.lt_irrefl 0), masterP]
        unfold syncMaster at b2
        simp only [Option.bind_eq_bind, Option.bind_eq_some_iff] at b2
        obtain ⟨own, e1, d', e2, e3⟩ := b2
        split at e3
        · rename_i e4
          cases e3
          simp only [e1, orErr]
          have hlen : c.tasks.length - 1 = js.length := by omega
          rw [hlen]
          refine le_gather hnd ?_ js 1 chInit own chInit (by omega) (by omega) hfj e2
          rw [if_pos e4, hjl]
          refine le_spread h0 ?_ _ _
          rw [Option.bind_eq_some_iff] at b7
          obtain ⟨w, e5, e6⟩ := b7
          simp only [e5, e6]
          exact hput x
        · cases e3
      | succ i =>
        simp only [syncP, if_pos (Nat.succ_pos i)]
        have hiu : i < us.length := by omega
        obtain ⟨g5, g6⟩ := allSome_at b1
        obtain ⟨j, g7, g8⟩ := g6 i (by omega)
        obtain ⟨g9, g10⟩ := allSome_at b8
        obtain ⟨t', g11, g12⟩ := g10 i (by omega)
        have hu : (us.map (·.2.2))[i]? = some u := by simpa using g4
        rw [List.getElem?_map, hu] at g7 g11
        simp only [Option.map_some, Option.some.injEq] at g7 g11
        rw [List.getElem?_cons_succ, g12] at ht
        cases ht
        rw [Option.bind_eq_some_iff] at g11
        obtain ⟨w, e5, e6⟩ := g11
        rw [clientP_eq (off := j.1) (data := j.2) g7]
        refine gather_at hnd hi (by omega) ?_ js 1 (by omega) (by omega) (by simpa using g8)
        refine spread_at hnd hi (by omega) hfd e5 ?_ _ 1 (by omega) (by omega) (by omega)
        simp only [e6]
        exact hput x

/-- Events of several rounds. -/
theorem rounds_evs (hq : IsQsort q) (hnd : c.tasks.Nodup) (hc : S c) (h0 : 0 < c.tasks.length) :
    ∀ (rs : List (List (List (Bytes × Bytes)))) {f : Bytes → Option Bytes} {ss : List KVS} (st : Nat → KVS), ss.length = c.tasks.length →
      (∀ hs ∈ rs, hs.length = c.tasks.length) → (∀ s ∈ ss, Clean f s) → RoundsOK f rs → (∀ hs ∈ rs, RoundFits hs) →
      (∀ i (h : i < ss.length), st (c.proc i) = ss[i]) →
      ∃ (es : List (Ev KVS)) (t : Nat → KVS), WF S none es ∧ run es st = some t ∧ (∀ p x, p ∉ c.tasks → proj p es x = .ret x) ∧
        (∀ i : Nat, i < c.tasks.length → Clean (roundsSpec f rs) (t (c.proc i)) ∧
          ∀ s, ss[i]? = some s → Le (proj (c.proc i) es s) (roundsP q c i (rs.map fun hs => hs[i]?.getD []) s))
  | [], f, ss, st, hl', _, hcl, _, _, hst => by
    refine ⟨[], st, trivial, rfl, fun _ _ _ => rfl, fun i hi => ⟨?_, fun s _ => .ret s⟩⟩
    rw [hst i (by omega)]
    exact hcl _ (List.getElem_mem _)
  | hs :: rs, f, ss, st, hl', hl, hcl, hok, hfit, hst => by
    obtain ⟨E, us, a1, a2, a3, a4, a5, a6⟩ := round_evs hq hnd hc h0 (hl hs (by simp)) hl' hcl hok.1 (hfit hs (by simp))
    obtain ⟨st', c1, hst'⟩ := a4 st
    obtain ⟨es, t, b1, b2, b3, b4⟩ := rounds_evs hq hnd hc h0 rs st' a1 (fun h hh => hl h (by simp [hh])) a2 hok.2
      (fun h hh => hfit h (by simp [hh])) hst'
    refine ⟨E ++ es, t, a3 es b1, by rw [run_append, c1]; exact b2, fun p x hp => by rw [a5 es p x hp, b3 p x hp], fun i hi => ?_⟩
    obtain ⟨e1, e2⟩ := b4 i hi
    refine ⟨e1, fun s hs' => ?_⟩
    have hi' : i < hs.length := by rw [hl hs (by simp)]; exact hi
    simp only [roundsP, List.map_cons]
    refine a6 es s i _ s us[i] _ ?_ hs' (List.getElem?_eq_getElem (by omega)) (e2 _ (List.getElem?_eq_getElem (by omega)))
    rw [List.getElem?_eq_getElem hi']
    rfl

end Laik.Ts
