import Verif.Model.Tcp2SyncText
import Verif.Spec.KvsRounds
import Verif.Props.KvsSync
import Verif.Props.Kvs
/-!
# Lemmas on the stores in a synchronization over the TCP2 backend
-/

namespace Laik.Ks
open Laik

/-- A value which is a string. -/
def IsStr (v : Bytes) : Prop := ∃ t, v = t ++ [0] ∧ 0 ∉ t

/-- Store in a synchronization: values are `f`, with changes from `U` for keys
marked. -/
structure Part (f : Bytes → Option Bytes) (U : Bytes → Bytes → Prop) (s : KVS) : Prop where
  inv : KEInv s.ent s.sortedUpto
  sync : s.inSync = true
  cap : s.changes.offSize / 2 ≤ s.changes.entSize
  key : ∀ k, (entFlag s.ent k = true ∧ ∃ v, entVal s.ent k = some (v ++ [0]) ∧ U k v) ∨
    (entFlag s.ent k = false ∧ entVal s.ent k = f k)

theorem str_cases {t v : Bytes} (ht : 0 ∉ t) (hv : 0 ∉ v) :
    t = v ∨ (¬ (v ++ [0]) <+: (t ++ [0]) ∧ ¬ (t ++ [0]) <+: (v ++ [0])) := by
  by_cases h : t = v
  · exact .inl h
  · exact .inr ⟨fun hh => h (prefix_nul hv ht hh).symm, fun hh => h (prefix_nul ht hv hh)⟩

theorem mark_keys (s : KVS) (k : Bytes) : (markUpd s k).ent.map (·.key) = s.ent.map (·.key) :=
  entUpd_keys (l := s.ent) (k := k) (f := fun e => { e with updated := true }) (by intro; rfl)

theorem mark_val (s : KVS) (k k' : Bytes) : entVal (markUpd s k).ent k' = entVal s.ent k' := by
  refine (entVal_upd s.ent k (f := fun e => { e with updated := true }) (by intro; rfl) k').trans ?_
  split
  · rename_i h; subst h; rfl
  · rfl

theorem mark_flag {s : KVS} {k v : Bytes} (h : entVal s.ent k = some v) (k' : Bytes) :
    entFlag (markUpd s k).ent k' = if k' = k then true else entFlag s.ent k' := by
  refine (entFlag_upd s.ent k (f := fun e => { e with updated := true }) (by intro; rfl) k').trans ?_
  split
  · unfold entVal at h
    cases hf : s.ent.find? (fun e => e.key = k) with
    | none => rw [hf] at h; cases h
    | some e => rfl
  · rfl

/-- A change is received. -/
theorem Part.set {f U} {s : KVS} (h : Part f U s) (hU : ∀ k v w, U k v → U k w → v = w) (hUs : ∀ k v, U k v → 0 ∉ v)
    (hf : ∀ k old, f k = some old → IsStr old) {k v : Bytes} (hk : U k v) :
    ∃ s', kvsSet s k (v ++ [0]) = some s' ∧ Part f U (markUpd s' k) ∧
      ∀ k', entFlag (markUpd s' k).ent k' = if k' = k then true else entFlag s.ent k' := by
  have hfin : ∀ s', KEInv s'.ent s'.sortedUpto → s'.inSync = true → s'.changes = s.changes →
      (∀ k', entVal s'.ent k' = if k' = k then some (v ++ [0]) else entVal s.ent k') →
      (∀ k', entFlag s'.ent k' = entFlag s.ent k') → Part f U (markUpd s' k) ∧
      ∀ k', entFlag (markUpd s' k).ent k' = if k' = k then true else entFlag s.ent k' := by
    intro s' h1 h2 h3 h4 h5
    have hfl : ∀ k', entFlag (markUpd s' k).ent k' = if k' = k then true else entFlag s.ent k' := by
      intro k'
      rw [mark_flag (v := v ++ [0]) (by rw [h4, if_pos rfl]), h5]
    refine ⟨⟨einv_keys h1 (mark_keys s' k), h2, ?_, ?_⟩, hfl⟩
    · show s'.changes.offSize / 2 ≤ s'.changes.entSize
      rw [h3]; exact h.cap
    · intro k'
      rw [hfl, mark_val, h4]
      by_cases hk' : k' = k
      · subst hk'
        simp only [if_true]
        exact .inl ⟨trivial, v, rfl, hk⟩
      · simp only [if_neg hk']
        exact h.key k'
  have hsame : entVal s.ent k = some (v ++ [0]) → ∃ s', kvsSet s k (v ++ [0]) = some s' ∧ Part f U (markUpd s' k) ∧
      ∀ k', entFlag (markUpd s' k).ent k' = if k' = k then true else entFlag s.ent k' := by
    intro hv
    refine ⟨s, kvsSet_prefix h.inv hv (List.prefix_refl _), hfin s h.inv h.sync rfl ?_ (fun _ => rfl)⟩
    intro k'
    split
    · rename_i hk'; rw [hk', hv]
    · rfl
  rcases h.key k with ⟨h1, w, h2, h3⟩ | ⟨h1, h2⟩
  · rw [hU k w v h3 hk] at h2
    exact hsame h2
  · by_cases hs : f k = some (v ++ [0])
    · exact hsame (h2.trans hs)
    · obtain ⟨s', g1, g2, g3, g4, g5, g6⟩ := kvsSet_sync (k := k) (v := v ++ [0]) h.inv h.sync (by
        intro old ho
        obtain ⟨t, rfl, ht⟩ := hf k old (h2.symm.trans ho)
        rcases str_cases ht (hUs k v hk) with rfl | hu
        · exact absurd (h2.symm.trans ho) hs
        · exact hu) h1
      exact ⟨s', g1, hfin s' g2 g3 g4 g5 g6⟩

/-- What is sent. -/
theorem Part.lines {f U} {s : KVS} (h : Part f U s) (hP : ∀ k v, U k v → PairOK k v) :
    ∃ L : List (Bytes × Bytes), changeLines s = some (changesLine L.length :: L.map fun x => dataLine x.1 x.2) ∧
      (∀ x ∈ L, U x.1 x.2) ∧ ∀ k, entFlag s.ent k = true → ∃ w, (k, w) ∈ L := by
  have hn := h.inv.nodup
  have key : ∀ l : List KEnt, (∀ e ∈ l, e ∈ s.ent ∧ e.updated = true) →
      ∃ L : List (Bytes × Bytes), L.length = l.length ∧
        allSome (l.map fun e => (dataMsg e).bind wireLines) = some (L.map fun x => [dataLine x.1 x.2]) ∧
        (∀ x ∈ L, U x.1 x.2) ∧ ∀ e ∈ l, ∃ w, (e.key, w) ∈ L := by
    intro l
    induction l with
    | nil => intro _; exact ⟨[], rfl, rfl, by simp, by simp⟩
    | cons e l ih =>
      intro hl
      obtain ⟨L, h1, h2, h3, h4⟩ := ih (fun x hx => hl x (by simp [hx]))
      obtain ⟨he, hu⟩ := hl e (by simp)
      rcases h.key e.key with ⟨-, v, hv, hUv⟩ | ⟨hf, -⟩
      · rw [entVal_of_mem hn he] at hv
        refine ⟨(e.key, v) :: L, by simp [h1], ?_, ?_, ?_⟩
        · rw [List.map_cons, data_sent (hP _ _ hUv) e rfl hv, allSome, h2]
          rfl
        · intro x hx
          rcases List.mem_cons.1 hx with rfl | hx
          · exact hUv
          · exact h3 x hx
        · intro x hx
          rcases List.mem_cons.1 hx with rfl | hx
          · exact ⟨v, by simp⟩
          · obtain ⟨w, hw⟩ := h4 x hx
            exact ⟨w, by simp [hw]⟩
      · rw [entFlag_of_mem hn he, hu] at hf
        cases hf
  obtain ⟨L, h1, h2, h3, h4⟩ := key (updated s) (by
    intro e he
    unfold updated at he
    rw [List.mem_filter] at he
    exact he)
  refine ⟨L, ?_, h3, ?_⟩
  · unfold changeLines
    rw [changes_sent, allSome, h2, ← h1]
    simp only [Option.map_some, List.flatten_cons, List.singleton_append, Option.some.injEq, List.cons.injEq, true_and]
    clear * -
    induction L with
    | nil => rfl
    | cons x L ih => rw [List.map_cons, List.flatten_cons, ih]; rfl
  · intro k hk
    unfold entFlag at hk
    cases hf : s.ent.find? (fun e => e.key = k) with
    | none => rw [hf] at hk; cases hk
    | some e =>
      rw [hf] at hk
      have hm := List.mem_of_find?_eq_some hf
      have hkey := List.find?_some hf
      simp only [decide_eq_true_eq] at hkey
      subst hkey
      exact h4 e (by unfold updated; rw [List.mem_filter]; exact ⟨hm, hk⟩)

/-- End of a synchronization, with all changes received. -/
theorem Part.finish {q} (hq : IsQsort q) {f U} {s : KVS} (h : Part f U s) {F : Bytes → Option Bytes}
    (hF : ∀ k v, U k v → F k = some (v ++ [0])) (hF' : ∀ k, (∀ v, ¬ U k v) → F k = f k)
    (hall : ∀ k v, U k v → f k = some (v ++ [0]) ∨ entFlag s.ent k = true) :
    ∃ s', syncEnd q s = some s' ∧ Clean F s' := by
  refine syncEnd_spec hq h.inv h.cap ?_
  intro k
  rcases h.key k with ⟨-, v, hv, hU⟩ | ⟨h1, h2⟩
  · rw [hv, hF k v hU]
  · rw [h2]
    by_cases hu : ∃ v, U k v
    · obtain ⟨v, hv⟩ := hu
      rcases hall k v hv with h3 | h3
      · rw [h3, hF k v hv]
      · rw [h1] at h3; cases h3
    · exact (hF' k (fun v hv => hu ⟨v, hv⟩)).symm

theorem lastOf_snoc (h : List (Bytes × Bytes)) (k v k' : Bytes) :
    lastOf (h ++ [(k, v)]) k' = if k' = k then some v else lastOf h k' := by
  unfold lastOf
  rw [List.reverse_append, List.reverse_singleton, List.singleton_append, List.find?_cons]
  by_cases hk : k = k'
  · subst hk; simp
  · have : ¬ k' = k := fun h => hk h.symm
    simp [hk, this]

/-- Store with changes `h` on top of `f`. -/
structure Loc (f : Bytes → Option Bytes) (h : List (Bytes × Bytes)) (s : KVS) : Prop where
  inv : ∃ j, SInv s j
  sync : s.inSync = false
  val : ∀ k, entVal s.ent k = match lastOf h k with | some v => some (v ++ [0]) | none => f k
  flag : ∀ k, entFlag s.ent k = true → lastOf h k ≠ none
  noflag : ∀ k, entFlag s.ent k = false → entVal s.ent k = f k

theorem Loc.runUpds {f : Bytes → Option Bytes} (hf : ∀ k old, f k = some old → IsStr old) :
    ∀ (h h0 : List (Bytes × Bytes)) {s : KVS}, Loc f h0 s → (∀ x ∈ h0 ++ h, 0 ∉ x.2) →
    ∃ s', runUpds (h.map fun x => .sets x.1 x.2) s = some s' ∧ Loc f (h0 ++ h) s'
  | [], h0, s, hl, _ => ⟨s, rfl, by simpa using hl⟩
  | (k, v) :: h, h0, s, hl, hv => by
    have hrest : ∀ s1, kvsSet s k (v ++ [0]) = some s1 → Loc f (h0 ++ [(k, v)]) s1 →
        ∃ s', Ks.runUpds (((k, v) :: h).map fun x => .sets x.1 x.2) s = some s' ∧ Loc f (h0 ++ (k, v) :: h) s' := by
      intro s1 hs1 h1
      obtain ⟨s', g1, g2⟩ := Loc.runUpds hf h (h0 ++ [(k, v)]) h1 (by simpa using hv)
      refine ⟨s', ?_, by simpa using g2⟩
      rw [List.map_cons, Ks.runUpds, runUpd, kvsSets, hs1, Option.bind_some, g1]
    have hstr : ∀ k' old, entVal s.ent k' = some old → IsStr old := by
      intro k' old ho
      rw [hl.val] at ho
      cases hlast : lastOf h0 k' with
      | none => rw [hlast] at ho; exact hf k' old ho
      | some w =>
        rw [hlast] at ho
        simp only [Option.some.injEq] at ho
        refine ⟨w, ho.symm, ?_⟩
        unfold lastOf at hlast
        rw [Option.map_eq_some_iff] at hlast
        obtain ⟨x, hx, rfl⟩ := hlast
        have := List.mem_of_find?_eq_some hx
        rw [List.mem_reverse] at this
        exact hv x (by simp [this])
    obtain ⟨j, hj⟩ := hl.inv
    have hv0 : 0 ∉ v := hv (k, v) (by simp)
    by_cases hsame : entVal s.ent k = some (v ++ [0])
    · refine hrest s (kvsSet_prefix hj.ent hsame (List.prefix_refl _)) ⟨⟨j, hj⟩, hl.sync, ?_, ?_, hl.noflag⟩
      · intro k'
        rw [lastOf_snoc]
        by_cases hk : k' = k
        · subst hk; simp only [if_true]; exact hsame
        · simp only [if_neg hk]; exact hl.val k'
      · intro k' hk'
        rw [lastOf_snoc]
        split
        · simp
        · exact hl.flag k' hk'
    · obtain ⟨s1, g1, g2, g3, g4, g5⟩ := kvsSet_change (k := k) (v := v ++ [0]) hj hl.sync (by
        intro old ho
        obtain ⟨t, rfl, ht⟩ := hstr k old ho
        rcases str_cases ht hv0 with rfl | hu
        · exact absurd ho hsame
        · exact hu)
      refine hrest s1 g1 ⟨⟨_, g2⟩, g3, ?_, ?_, ?_⟩
      · intro k'
        rw [lastOf_snoc, g4]
        by_cases hk : k' = k
        · subst hk; simp
        · simp only [if_neg hk]; exact hl.val k'
      · intro k' hk'
        rw [g5] at hk'
        rw [lastOf_snoc]
        by_cases hk : k' = k
        · simp [hk]
        · rw [if_neg hk] at hk' ⊢
          exact hl.flag k' hk'
      · intro k' hk'
        rw [g5] at hk'
        rw [g4]
        by_cases hk : k' = k
        · rw [if_pos hk] at hk'; cases hk'
        · rw [if_neg hk] at hk' ⊢
          exact hl.noflag k' hk'

/-- Local changes, then start of the synchronization. -/
theorem Clean.part {f : Bytes → Option Bytes} (hf : ∀ k old, f k = some old → IsStr old) {s : KVS} (hc : Clean f s)
    {h : List (Bytes × Bytes)} (hv : ∀ x ∈ h, 0 ∉ x.2) {U : Bytes → Bytes → Prop} (hU : ∀ k v, lastOf h k = some v → U k v) :
    ∃ s', runUpds (h.map fun x => .sets x.1 x.2) s = some s' ∧ Part f U { s' with inSync := true } ∧
      ∀ k v, lastOf h k = some v → f k = some (v ++ [0]) ∨ entFlag s'.ent k = true := by
  obtain ⟨s', h1, h2⟩ := Loc.runUpds hf h [] (s := s)
    ⟨⟨[], hc.inv⟩, hc.sync, hc.val, (by intro k hk; rw [hc.flag] at hk; cases hk), fun k _ => hc.val k⟩ (by simpa using hv)
  rw [List.nil_append] at h2
  obtain ⟨j, hj⟩ := h2.inv
  refine ⟨s', h1, ⟨hj.ent, rfl, hj.jrn.entLe, ?_⟩, ?_⟩
  · intro k
    cases hfl : entFlag s'.ent k with
    | false => exact .inr ⟨rfl, h2.noflag k hfl⟩
    | true =>
      have h3 := h2.flag k hfl
      have h4 := h2.val k
      cases hl : lastOf h k with
      | none => exact absurd hl h3
      | some v =>
        rw [hl] at h4
        exact .inl ⟨rfl, v, h4, hU k v hl⟩
  · intro k v hl
    cases hfl : entFlag s'.ent k with
    | true => exact .inr rfl
    | false =>
      have h4 := h2.val k
      rw [hl, h2.noflag k hfl] at h4
      exact .inl h4

end Laik.Ks
