import Verif.Model.KvsJournal
/-!
# Effect of the operations on a key-value store
-/

namespace Laik

/-- Updated flag for a key. -/
def entFlag (l : List KEnt) (k : Bytes) : Bool := ((l.find? (fun e => e.key = k)).map (·.updated)).getD false

theorem entFlag_of_mem {l : List KEnt} (h : (l.map (·.key)).Nodup) {e : KEnt} (he : e ∈ l) :
    entFlag l e.key = e.updated := by
  induction l with
  | nil => cases he
  | cons a l ih =>
    rw [List.map_cons, List.nodup_cons] at h
    unfold entFlag
    rw [List.find?_cons]
    rcases List.mem_cons.1 he with rfl | he
    · simp
    · have : a.key ≠ e.key := fun hk => h.1 (hk ▸ List.mem_map_of_mem he)
      simp only [this, decide_false]
      exact ih h.2 he

theorem entFlag_none {l : List KEnt} {k : Bytes} (h : ∀ e ∈ l, e.key ≠ k) : entFlag l k = false := by
  unfold entFlag
  rw [List.find?_eq_none.2]
  · rfl
  · intro e he
    simpa using h e he

theorem entFlag_upd (l : List KEnt) (k : Bytes) {f : KEnt → KEnt} (hf : ∀ e, (f e).key = e.key) (k' : Bytes) :
    entFlag (entUpd l k f) k' =
      if k' = k then ((l.find? (fun e => e.key = k)).map (fun e => (f e).updated)).getD false else entFlag l k' := by
  induction l with
  | nil => simp [entUpd, entFlag]
  | cons a l ih =>
    unfold entFlag entUpd at *
    simp only [List.map_cons, List.find?_cons]
    by_cases hak : a.key = k
    · by_cases hk' : k' = k
      · subst hk'
        simp [hak, hf]
      · have h1 : ¬ (f a).key = k' := by rw [hf, hak]; exact fun h => hk' h.symm
        have h2 : ¬ k = k' := fun h => hk' h.symm
        simp only [hak, if_true, h1, decide_false, if_neg hk', h2] at ih ⊢
        exact ih
    · by_cases hk' : k' = k
      · subst hk'
        simp only [hak, if_false, decide_false, if_true] at ih ⊢
        exact ih
      · simp only [hak, if_false, if_neg hk'] at ih ⊢
        by_cases hka : a.key = k'
        · simp [hka]
        · simp only [hka, decide_false]
          exact ih

/-- Invariant of a store; `j` is the content of the journal. -/
structure SInv (s : KVS) (j : List (Bytes × Bytes)) : Prop where
  ent : KEInv s.ent s.sortedUpto
  jrn : JInv s.changes j

theorem find_of_mem {l : List KEnt} (h : (l.map (·.key)).Nodup) {e : KEnt} (he : e ∈ l) :
    l.find? (fun x => x.key = e.key) = some e := by
  induction l with
  | nil => cases he
  | cons a l ih =>
    rw [List.map_cons, List.nodup_cons] at h
    rw [List.find?_cons]
    rcases List.mem_cons.1 he with rfl | he
    · simp
    · have : a.key ≠ e.key := fun hk => h.1 (hk ▸ List.mem_map_of_mem he)
      simp only [this, decide_false]
      exact ih h.2 he

theorem kvsSet_prefix {s : KVS} (h : KEInv s.ent s.sortedUpto) {k v old : Bytes} (hv : entVal s.ent k = some old)
    (hp : v <+: old) : kvsSet s k v = some s := by
  unfold kvsSet
  rcases kvsEntry_spec h k with ⟨i, e, h1, h2, rfl⟩ | ⟨h1, h2⟩
  · rw [h1]
    rw [entVal_of_mem h.nodup (List.mem_of_getElem? h2)] at hv
    simp [h2, hv, memcmpEq_true.2 hp]
  · rw [entVal_none h2] at hv
    cases hv

theorem kvsSet_ext {s : KVS} (h : KEInv s.ent s.sortedUpto) {k v old : Bytes} (hv : entVal s.ent k = some old)
    (hp : old <+: v) (hne : old ≠ v) : kvsSet s k v = none := by
  unfold kvsSet
  rcases kvsEntry_spec h k with ⟨i, e, h1, h2, rfl⟩ | ⟨h1, h2⟩
  · rw [h1]
    rw [entVal_of_mem h.nodup (List.mem_of_getElem? h2)] at hv
    simp [h2, hv, memcmpEq_none.2 ⟨hp, hne⟩]
  · rw [entVal_none h2] at hv
    cases hv

/-- The entry used for storing a different value. -/
theorem kvsSet_store {s : KVS} (h : KEInv s.ent s.sortedUpto) {k v : Bytes}
    (hd : ∀ old, entVal s.ent k = some old → ¬ v <+: old ∧ ¬ old <+: v) :
    ∃ ent1 i e, kvsSet s k v = kvsStore { s with ent := ent1 } i e.key v e.updated ∧ ent1[i]? = some e ∧ e.key = k ∧
      KEInv ent1 s.sortedUpto ∧ (∀ k', entVal ent1 k' = entVal s.ent k') ∧ (∀ k', entFlag ent1 k' = entFlag s.ent k') := by
  unfold kvsSet
  rcases kvsEntry_spec h k with ⟨i, e, h1, h2, rfl⟩ | ⟨h1, h2⟩
  · rw [h1]
    refine ⟨s.ent, i, e, ?_, h2, rfl, h, fun _ => rfl, fun _ => rfl⟩
    simp only [Option.bind_some, h2]
    cases hv : e.value with
    | none => rfl
    | some old =>
      have := hd old (by rw [entVal_of_mem h.nodup (List.mem_of_getElem? h2), hv])
      simp [memcmpEq_false this.1 this.2]
  · rw [h1]
    refine ⟨s.ent ++ [⟨k, none, false⟩], s.ent.length, ⟨k, none, false⟩, rfl, by simp, rfl,
      einv_append h h2, ?_, ?_⟩
    · intro k'
      unfold entVal
      rw [List.find?_append]
      cases hf : s.ent.find? (fun e => e.key = k') with
      | none =>
        simp only [Option.none_or, Option.bind_none]
        by_cases hk : k = k'
        · simp [hk]
        · simp [hk]
      | some e => simp
    · intro k'
      unfold entFlag
      rw [List.find?_append]
      cases hf : s.ent.find? (fun e => e.key = k') with
      | none =>
        simp only [Option.none_or]
        by_cases hk : k = k'
        · simp [hk]
        · simp [hk]
      | some e => simp

theorem kvsSet_change {s : KVS} {j} (h : SInv s j) (hs : s.inSync = false) {k v : Bytes}
    (hd : ∀ old, entVal s.ent k = some old → ¬ v <+: old ∧ ¬ old <+: v) :
    ∃ s', kvsSet s k v = some s' ∧ SInv s' (j ++ [(k, v)]) ∧ s'.inSync = false ∧
      (∀ k', entVal s'.ent k' = if k' = k then some v else entVal s.ent k') ∧
      (∀ k', entFlag s'.ent k' = if k' = k then true else entFlag s.ent k') := by
  obtain ⟨ent1, i, e, h1, h2, rfl, h3, h4, h5⟩ := kvsSet_store h.ent hd
  rw [h1]
  unfold kvsStore
  obtain ⟨c', hc, hj⟩ := chAdd_journal h.jrn e.key v
  simp only [hs, Bool.and_false, Bool.false_eq_true, if_false, hc, Option.map_some]
  have hset := set_eq_upd h3.nodup h2 (fun e => ⟨e.key, some v, true⟩)
  have hmem := List.mem_of_getElem? h2
  refine ⟨_, rfl, ⟨?_, hj⟩, rfl, ?_, ?_⟩
  · simp only [hset]
    exact einv_keys h3 (entUpd_keys (fun _ => rfl))
  · intro k'
    simp only [hset]
    rw [entVal_upd _ _ (by intro; rfl), find_of_mem h3.nodup hmem, h4]
    rfl
  · intro k'
    simp only [hset]
    rw [entFlag_upd _ _ (by intro; rfl), find_of_mem h3.nodup hmem, h5]
    rfl

theorem kvsSet_sync {s : KVS} (h : KEInv s.ent s.sortedUpto) (hs : s.inSync = true) {k v : Bytes}
    (hd : ∀ old, entVal s.ent k = some old → ¬ v <+: old ∧ ¬ old <+: v) (hf : entFlag s.ent k = false) :
    ∃ s', kvsSet s k v = some s' ∧ KEInv s'.ent s'.sortedUpto ∧ s'.inSync = true ∧ s'.changes = s.changes ∧
      (∀ k', entVal s'.ent k' = if k' = k then some v else entVal s.ent k') ∧
      (∀ k', entFlag s'.ent k' = entFlag s.ent k') := by
  obtain ⟨ent1, i, e, h1, h2, rfl, h3, h4, h5⟩ := kvsSet_store h hd
  have hmem := List.mem_of_getElem? h2
  have hu : e.updated = false := by
    rw [← entFlag_of_mem h3.nodup hmem, h5, hf]
  rw [h1]
  unfold kvsStore
  simp only [hs, hu, Bool.false_and, Bool.false_eq_true, if_false, if_true]
  have hset := set_eq_upd h3.nodup h2 (fun e => ⟨e.key, some v, false⟩)
  refine ⟨_, rfl, ?_, rfl, rfl, ?_, ?_⟩
  · simp only [hset]
    exact einv_keys h3 (entUpd_keys (fun _ => rfl))
  · intro k'
    simp only [hset]
    rw [entVal_upd _ _ (by intro; rfl), find_of_mem h3.nodup hmem, h4]
    rfl
  · intro k'
    simp only [hset]
    rw [entFlag_upd _ _ (by intro; rfl), find_of_mem h3.nodup hmem, h5]
    by_cases hk : k' = e.key
    · subst hk
      simp [hf]
    · simp [hk]

theorem kvsSet_panic {s : KVS} (h : KEInv s.ent s.sortedUpto) (hs : s.inSync = true) {k v : Bytes}
    (hd : ∀ old, entVal s.ent k = some old → ¬ v <+: old ∧ ¬ old <+: v) (hf : entFlag s.ent k = true) :
    kvsSet s k v = none := by
  obtain ⟨ent1, i, e, h1, h2, rfl, h3, h4, h5⟩ := kvsSet_store h hd
  have hmem := List.mem_of_getElem? h2
  have hu : e.updated = true := by
    rw [← entFlag_of_mem h3.nodup hmem, h5, hf]
  rw [h1]
  unfold kvsStore
  simp [hs, hu]

theorem kvsRemoveEntry_spec {s : KVS} {j} (h : SInv s j) (hs : s.inSync = false) {i : Nat} {e : KEnt}
    (hi : s.ent[i]? = some e) :
    ∃ s', kvsRemoveEntry s i = some s' ∧ SInv s' (j ++ [(e.key, [])]) ∧ s'.inSync = false ∧
      s'.ent = entUpd s.ent e.key (fun x => { x with value := none }) ∧ s'.sortedUpto = s.sortedUpto := by
  unfold kvsRemoveEntry
  simp only [hi]
  obtain ⟨c', hc, hj⟩ := chAdd_journal h.jrn e.key []
  simp only [hs, Bool.false_eq_true, if_false, hc, Option.map_some]
  have hset := set_eq_upd h.ent.nodup hi (fun x => { x with value := none })
  refine ⟨_, rfl, ⟨?_, hj⟩, rfl, hset, rfl⟩
  simp only [hset]
  exact einv_keys h.ent (entUpd_keys (fun _ => rfl))

theorem entVal_removed {l : List KEnt} {k : Bytes} (k' : Bytes) :
    entVal (entUpd l k (fun x => { x with value := none })) k' = if k' = k then none else entVal l k' := by
  rw [entVal_upd _ _ (by intro; rfl)]
  split
  · cases l.find? (fun e => e.key = k) <;> rfl
  · rfl

theorem kvsRemove_spec {s : KVS} {j} (h : SInv s j) (hs : s.inSync = false) (k : Bytes) :
    ∃ b s' j', kvsRemove s k = some (b, s') ∧ SInv s' j' ∧ s'.inSync = false ∧
      (∀ k', entVal s'.ent k' = if k' = k then none else entVal s.ent k') := by
  unfold kvsRemove
  rcases kvsEntry_spec h.ent k with ⟨i, e, h1, h2, rfl⟩ | ⟨h1, h2⟩
  · rw [h1]
    obtain ⟨s', h3, h4, h5, h6, _⟩ := kvsRemoveEntry_spec h hs h2
    simp only [Option.bind_some, h3, Option.map_some]
    refine ⟨_, _, _, rfl, h4, h5, ?_⟩
    intro k'
    rw [h6]
    exact entVal_removed k'
  · rw [h1]
    refine ⟨_, _, _, rfl, h, hs, ?_⟩
    intro k'
    split
    · rename_i hk
      rw [hk, entVal_none h2]
    · rfl

theorem kvsCleanGo_spec : ∀ (n i : Nat) {s : KVS} {j}, SInv s j → s.inSync = false → i + n = s.ent.length →
    ∃ s' j', kvsCleanGo n i s = some s' ∧ SInv s' j' ∧ s'.inSync = false ∧ s'.ent.length = s.ent.length ∧
      (∀ m e, s'.ent[m]? = some e → (i ≤ m ∨ ∀ e', s.ent[m]? = some e' → e'.value = none) → e.value = none)
  | 0, i, s, j, h, hs, hi => by
    refine ⟨s, j, rfl, h, hs, rfl, ?_⟩
    rintro m e hm (h1 | h1)
    · rw [List.getElem?_eq_none (by omega)] at hm
      cases hm
    · exact h1 e hm
  | n + 1, i, s, j, h, hs, hi => by
    unfold kvsCleanGo
    have hget : s.ent[i]? = some (s.ent[i]'(by omega)) := List.getElem?_eq_getElem _
    generalize (s.ent[i]'(by omega)) = e at hget
    simp only [hget]
    split
    · rename_i hv
      obtain ⟨s', j', h1, h2, h3, h4, h5⟩ := kvsCleanGo_spec n (i + 1) h hs (by omega)
      refine ⟨s', j', h1, h2, h3, h4, ?_⟩
      rintro m e' hm hor
      refine h5 m e' hm ?_
      rcases hor with hor | hor
      · by_cases him : i = m
        · subst him
          refine .inr ?_
          intro x hx
          rw [hget] at hx
          cases hx
          exact hv
        · exact .inl (by omega)
      · exact .inr hor
    · obtain ⟨s1, h1, h2, h3, h4, _⟩ := kvsRemoveEntry_spec h hs hget
      have hlen : s1.ent.length = s.ent.length := by rw [h4]; simp [entUpd]
      obtain ⟨s', j', g1, g2, g3, g4, g5⟩ := kvsCleanGo_spec n (i + 1) h2 h3 (by omega)
      rw [h1, Option.bind_some]
      refine ⟨s', j', g1, g2, g3, by omega, ?_⟩
      rintro m e' hm hor
      refine g5 m e' hm ?_
      have hval : ∀ x, s1.ent[m]? = some x → (∀ e', s.ent[m]? = some e' → e'.value = none) → x.value = none := by
        intro x hx hall
        rw [h4] at hx
        unfold entUpd at hx
        rw [List.getElem?_map] at hx
        cases hm' : s.ent[m]? with
        | none => rw [hm'] at hx; cases hx
        | some y =>
          rw [hm'] at hx
          simp only [Option.map_some, Option.some.injEq] at hx
          subst hx
          split
          · rfl
          · exact hall y hm'
      rcases hor with hor | hor
      · by_cases him : i = m
        · subst him
          refine .inr ?_
          intro x hx
          rw [h4] at hx
          unfold entUpd at hx
          rw [List.getElem?_map, hget] at hx
          simp only [Option.map_some, if_true, Option.some.injEq] at hx
          subst hx
          rfl
        · exact .inl (by omega)
      · exact .inr (fun x hx => hval x hx hor)

theorem kvsClean_spec {s : KVS} {j} (h : SInv s j) (hs : s.inSync = false) :
    ∃ s' j', kvsClean s = some s' ∧ SInv s' j' ∧ s'.inSync = false ∧ (∀ k, entVal s'.ent k = none) := by
  obtain ⟨s', j', h1, h2, h3, _, h5⟩ := kvsCleanGo_spec s.ent.length 0 h hs (by omega)
  refine ⟨s', j', h1, h2, h3, ?_⟩
  intro k
  unfold entVal
  cases hf : s'.ent.find? (fun e => e.key = k) with
  | none => rfl
  | some e =>
    obtain ⟨m, hm⟩ := List.mem_iff_getElem?.1 (List.mem_of_find?_eq_some hf)
    exact h5 m e hm (.inl (by omega))

theorem kvsSort_spec {q} (hq : IsQsort q) {s : KVS} {j} (h : SInv s j) :
    SInv (kvsSort q s) j ∧ (∀ k, entVal (kvsSort q s).ent k = entVal s.ent k) ∧
      (∀ k, entFlag (kvsSort q s).ent k = entFlag s.ent k) := by
  have hp := hq.perm s.ent
  refine ⟨⟨einv_sort hq h.ent.nodup, h.jrn⟩, entVal_perm hp h.ent.nodup, ?_⟩
  intro k
  have h' : ((q s.ent).map (·.key)).Nodup := (hp.map (·.key)).nodup_iff.2 h.ent.nodup
  simp only [kvsSort]
  by_cases hk : ∃ e ∈ s.ent, e.key = k
  · obtain ⟨e, he, rfl⟩ := hk
    rw [entFlag_of_mem h.ent.nodup he, entFlag_of_mem h' (hp.mem_iff.2 he)]
  · have hk : ∀ e ∈ s.ent, e.key ≠ k := fun e he h => hk ⟨e, he, h⟩
    rw [entFlag_none hk, entFlag_none (fun e he => hk e (hp.mem_iff.1 he))]

theorem kvsNew_inv : SInv kvsNew [] := by
  refine ⟨⟨by simp [kvsNew], by simp [kvsNew], by simp [kvsNew]⟩, ⟨rfl, rfl, rfl, ?_, ?_, ?_⟩⟩ <;> simp [kvsNew]

end Laik
