import Verif.Model.Locations
import Verif.Model.Names
import Verif.Props.KvsSync
/-!
# Lemmas for location strings
-/

namespace Laik.Lc

open Laik

/-! ## Keys -/

theorem isDigit_range {c : Char} (h : Codec.isDigit c = true) : 48 ≤ c.toNat ∧ c.toNat ≤ 57 := by
  unfold Codec.isDigit at h
  simp at h
  exact h

theorem key_range (n : Nat) : ∀ c ∈ (Codec.digits n).map Char.toNat, 48 ≤ c ∧ c ≤ 57 := by
  intro c hc
  obtain ⟨d, hd, rfl⟩ := List.mem_map.1 hc
  exact isDigit_range (Codec.digits_all n d hd)

theorem locKey_range (n : Nat) : ∀ c ∈ locKey n, 48 ≤ c ∧ c ≤ 57 := fun c hc =>
  key_range n c (List.mem_of_mem_take hc)

theorem locKey_no0 (n : Nat) : 0 ∉ locKey n := fun h => by
  have := locKey_range n 0 h
  omega

theorem atoi_all {k : Bytes} (h : ∀ c ∈ k, 48 ≤ c ∧ c ≤ 57) : atoi k = k.foldl (fun a c => 10 * a + (c - 48)) 0 := by
  have : k.takeWhile (fun c => decide (48 ≤ c ∧ c ≤ 57)) = k := by
    induction k with
    | nil => rfl
    | cons c k ih =>
      rw [List.takeWhile_cons, if_pos (by simpa using h c (by simp)), ih (fun d hd => h d (List.mem_cons_of_mem _ hd))]
  unfold atoi
  rw [this]

theorem fold_lt (k : Bytes) (h : ∀ c ∈ k, 48 ≤ c ∧ c ≤ 57) (a : Nat) :
    k.foldl (fun a c => 10 * a + (c - 48)) a < (a + 1) * 10 ^ k.length := by
  induction k generalizing a with
  | nil => simp
  | cons c k ih =>
    have h1 := h c (by simp)
    have h2 := ih (fun d hd => h d (List.mem_cons_of_mem _ hd)) (10 * a + (c - 48))
    rw [List.foldl_cons, List.length_cons, Nat.pow_succ]
    have h3 : (10 * a + (c - 48) + 1) * 10 ^ k.length ≤ ((a + 1) * 10) * 10 ^ k.length :=
      Nat.mul_le_mul_right _ (by omega)
    have h4 : (a + 1) * (10 ^ k.length * 10) = ((a + 1) * 10) * 10 ^ k.length := by
      rw [Nat.mul_comm (10 ^ k.length) 10, Nat.mul_assoc]
    omega

theorem atoi_locKey {n : Nat} (h : n < 10 ^ 9) : atoi (locKey n) = n := by
  rw [atoi_all (locKey_range n)]
  unfold locKey
  rw [List.take_of_length_le (by rw [List.length_map]; exact Codec.digits_length_le n 9 h (by decide)), List.foldl_map]
  exact Codec.digits_value n

theorem atoi_locKey_big (n : Nat) : atoi (locKey n) < 10 ^ 9 := by
  rw [atoi_all (locKey_range n)]
  have h1 := fold_lt (locKey n) (locKey_range n) 0
  have h2 : (locKey n).length ≤ 9 := by unfold locKey; simp; omega
  have h3 : 10 ^ (locKey n).length ≤ 10 ^ 9 := Nat.pow_le_pow_right (by decide) h2
  omega

theorem locKey_inj {a b : Nat} (ha : a < 10 ^ 9) (hb : b < 10 ^ 9) (h : locKey a = locKey b) : a = b := by
  rw [← atoi_locKey ha, ← atoi_locKey hb, h]

/-! ## Store with callbacks -/

section Callbacks

variable {A : Type} (u : Bytes → Bytes → A → Option A)

theorem kvsSame_spec {s : KVS} (h : KEInv s.ent s.sortedUpto) (k v : Bytes) :
    kvsSame s k v = true ↔ ∃ old, entVal s.ent k = some old ∧ v <+: old := by
  unfold kvsSame
  rcases kvsEntry_spec h k with ⟨i, e, h1, h2, rfl⟩ | ⟨h1, h2⟩
  · rw [h1, entVal_of_mem h.nodup (List.mem_of_getElem? h2)]
    simp only [h2, Option.bind_some]
    cases e.value with
    | none => simp
    | some old => simp [memcmpEq_true]
  · rw [h1, entVal_none h2]
    simp

/-- Changes applied one after the other. -/
def setAllCb : List (Bytes × Bytes) → KVS × A → Option (KVS × A)
  | [], p => some p
  | (k, v) :: l, p => (kvsSetCb u p k v).bind (setAllCb l)

theorem chApplyGoCb_spec {data : Bytes} : ∀ {l pre : List (Bytes × Bytes)} {p : KVS × A},
    data = jData (pre ++ l) → (∀ x ∈ l, 0 ∉ x.1 ∧ x.2 ≠ []) →
    chApplyGoCb u data ((jData pre).length :: jOffs (jData pre).length l) p = setAllCb u l p
  | [], _, _, _, _ => by simp [jOffs, chApplyGoCb, setAllCb]
  | (k, v) :: l, pre, s, hd, hx => by
    obtain ⟨hk, hv⟩ := hx (k, v) List.mem_cons_self
    have hd' : data = jData pre ++ (k ++ [0] ++ v ++ jData l) := by
      rw [hd, jData_append, jData_cons]
    have hp := jData_parts (jData pre) k v (jData l) hk
    simp only [← hd'] at hp
    obtain ⟨h1, h2, h3, h4⟩ := hp
    have hvl : 0 < v.length := List.length_pos_of_ne_nil hv
    rw [jOffs]
    rw [chApplyGoCb, if_pos ⟨by omega, by omega⟩, h1, h2, setAllCb]
    have hlen : (jData (pre ++ [(k, v)])).length = (jData pre).length + (k.length + 1) + v.length := by
      rw [jData_append, jData_cons]
      simp only [List.length_append, List.length_singleton, jData, List.flatMap_nil, List.length_nil]
      omega
    congr 1
    funext s'
    have ih := chApplyGoCb_spec (l := l) (pre := pre ++ [(k, v)]) (data := data) (p := s')
      (by rw [hd]; simp) (fun x h => hx x (List.mem_cons_of_mem _ h))
    rw [hlen] at ih
    exact ih

theorem chApplyCb_spec {c : Changes} {l} (ho : c.off = jOff l) (hd : c.data = jData l)
    (hl : ∀ x ∈ l, 0 ∉ x.1 ∧ x.2 ≠ []) (p : KVS × A) : chApplyCb u c p = setAllCb u l p := by
  unfold chApplyCb
  by_cases h0 : l = []
  · subst h0
    rw [if_pos (by rw [ho]; rfl)]
    rfl
  · have hlen : c.off.length = 2 * l.length + 1 := by rw [ho, jOff_length, if_neg h0]
    rw [if_neg (by omega), if_pos ⟨by omega, by rw [hd]; exact jData_pos h0⟩, ho, jOff, if_neg h0]
    exact chApplyGoCb_spec u (l := l) (pre := []) hd hl

/-- Callbacks for changes which are not yet in the store. -/
def cbs (f : Bytes → Option Bytes) (L : List (Bytes × Bytes)) (a : A) : Option A :=
  (L.filter (fun x => f x.1 ≠ some x.2)).foldlM (fun a x => u x.1 x.2 a) a

theorem setAllCb_sync : ∀ {L : List (Bytes × Bytes)} {s : KVS} (a : A), KEInv s.ent s.sortedUpto → s.inSync = true →
    (L.map (·.1)).Nodup →
    (∀ x ∈ L, entVal s.ent x.1 = some x.2 ∨
      ((∀ old, entVal s.ent x.1 = some old → Unrelated old x.2) ∧ entFlag s.ent x.1 = false)) →
    setAllCb u L (s, a) = (setAll L s).bind fun s' => (cbs u (entVal s.ent) L a).map fun a' => (s', a')
  | [], s, a, _, _, _, _ => rfl
  | (k, v) :: L, s, a, h, hs, hn, hx => by
    rw [List.map_cons, List.nodup_cons] at hn
    have hne : ∀ x ∈ L, x.1 ≠ k := fun x hx hk => hn.1 (hk ▸ List.mem_map_of_mem (f := (·.1)) hx)
    have step : ∃ s1, kvsSet s k v = some s1 ∧ KEInv s1.ent s1.sortedUpto ∧ s1.inSync = true ∧
        (∀ k', k' ≠ k → entVal s1.ent k' = entVal s.ent k') ∧
        (∀ k', entFlag s1.ent k' = entFlag s.ent k') ∧
        kvsSame s k v = decide (entVal s.ent k = some v) := by
      rcases hx (k, v) (by simp) with h1 | ⟨h1, h2⟩
      · refine ⟨s, kvsSet_prefix h h1 (List.prefix_refl v), h, hs, fun _ _ => rfl, fun _ => rfl, ?_⟩
        rw [(kvsSame_spec h k v).2 ⟨v, h1, List.prefix_refl v⟩]
        exact (decide_eq_true h1).symm
      · obtain ⟨s1, g1, g2, g3, _, g5, g6⟩ := kvsSet_sync h hs (fun old ho => ⟨(h1 old ho).2, (h1 old ho).1⟩) h2
        refine ⟨s1, g1, g2, g3, fun k' hk => by rw [g5, if_neg hk], g6, ?_⟩
        have e1 : ¬ entVal s.ent k = some v := fun e => (h1 v e).1 (List.prefix_refl v)
        rw [decide_eq_false e1, Bool.eq_false_iff]
        intro hsame
        obtain ⟨old, ho, hp⟩ := (kvsSame_spec h k v).1 hsame
        exact (h1 old ho).2 hp
    obtain ⟨s1, g1, g2, g3, g5, g6, g7⟩ := step
    have hcb : ∀ a', cbs u (entVal s1.ent) L a' = cbs u (entVal s.ent) L a' := by
      intro a'
      unfold cbs
      congr 1
      apply List.filter_congr
      intro x hm
      rw [g5 _ (hne x hm)]
    have ih := fun a' => setAllCb_sync (L := L) (s := s1) a' g2 g3 hn.2 (by
      intro x hm
      rw [g5 _ (hne x hm), g6]
      exact hx x (List.mem_cons_of_mem _ hm))
    rw [setAllCb, kvsSetCb, setAll]
    simp only [g1, Option.bind_some, hs, g7, Bool.true_and]
    by_cases hv : entVal s.ent k = some v
    · have e : cbs u (entVal s.ent) ((k, v) :: L) a = cbs u (entVal s.ent) L a := by
        unfold cbs
        rw [List.filter_cons_of_neg (by simpa using hv)]
      simp only [hv, decide_true, Bool.not_true, Bool.false_eq_true, if_false, Option.bind_some]
      rw [ih, hcb, e]
    · have e : cbs u (entVal s.ent) ((k, v) :: L) a = (u k v a).bind (cbs u (entVal s.ent) L) := by
        unfold cbs
        rw [List.filter_cons_of_pos (by simpa using hv), List.foldlM_cons]
        rfl
      simp only [hv, decide_false, Bool.not_false, if_true]
      rw [e]
      cases hu : u k v a with
      | none =>
        simp only [Option.map_none, Option.bind_none]
        cases setAll L s1 <;> rfl
      | some a1 =>
        simp only [Option.map_some, Option.bind_some]
        rw [ih, hcb]

theorem kvsSyncCb_none {q} : ∀ {ps : List (KVS × A)}, kvsSync q (ps.map (·.1)) = none → kvsSyncCb u q ps = none
  | [], h => by simp [kvsSync] at h
  | m :: ss, h => by
    rw [List.map_cons, kvsSync, List.map_map] at h
    rw [kvsSyncCb]
    cases h1 : allSome (ss.map fun p => syncSend { p.1 with inSync := true }) with
    | none => rfl
    | some js =>
      rw [show ((fun s : KVS => syncSend { s with inSync := true }) ∘ fun p : KVS × A => p.1) =
        fun p => syncSend { p.1 with inSync := true } from rfl, h1] at h
      cases h2 : syncMaster q { m.1 with inSync := true } js with
      | none => simp [h2]
      | some d => simp [h2] at h

end Callbacks

/-! ## Array -/

/-- Callbacks write what they are told and nothing else. -/
theorem fold_upd : ∀ (M : List (Bytes × Bytes)) (a : LocArr),
    (∀ x ∈ M, atoi x.1 < a.locations ∧ atoi x.1 < a.arr.length) → (M.map (fun x => atoi x.1)).Nodup →
    ∃ a', M.foldlM (fun a x => updLoc x.1 x.2 a) a = some a' ∧ a'.locations = a.locations ∧
      a'.arr.length = a.arr.length ∧ (∀ x ∈ M, a'.arr[atoi x.1]? = some (some (x.2.takeWhile (· ≠ 0)))) ∧
      ∀ j, (∀ x ∈ M, atoi x.1 ≠ j) → a'.arr[j]? = a.arr[j]?
  | [], a, _, _ => ⟨a, rfl, rfl, rfl, by simp, fun _ _ => rfl⟩
  | x :: M, a, h, hn => by
    rw [List.map_cons, List.nodup_cons] at hn
    have hx := h x (by simp)
    obtain ⟨a', h1, h2, h3, h4, h5⟩ := fold_upd M
      { a with arr := a.arr.set (atoi x.1) (some (x.2.takeWhile (· ≠ 0))) }
      (fun y hy => by simpa using h y (List.mem_cons_of_mem _ hy)) hn.2
    refine ⟨a', ?_, h2, by simpa using h3, ?_, ?_⟩
    · rw [List.foldlM_cons]
      unfold updLoc
      rw [if_pos hx]
      exact h1
    · intro y hy
      rcases List.mem_cons.1 hy with rfl | hy
      · rw [h5 _ (fun z hz he => hn.1 (List.mem_map.2 ⟨z, hz, he⟩))]
        simp only [List.getElem?_set, hx.2, if_true]
      · exact h4 y hy
    · intro j hj
      rw [h5 j (fun z hz => hj z (List.mem_cons_of_mem _ hz))]
      exact List.getElem?_set_ne (hj x (by simp))

end Laik.Lc
