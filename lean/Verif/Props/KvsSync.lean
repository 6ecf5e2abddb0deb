import Verif.Props.KvsMerge
/-!
# C26: synchronization makes all key-value stores equal
-/

namespace Laik

/-- Updates by all processes in one round, on top of the map `f`: the value set
by any process, otherwise the previous one. -/
def roundSpec (f : Bytes → Option Bytes) (hs : List (List (Bytes × Bytes))) (k : Bytes) : Option Bytes :=
  match hs.flatten.find? (fun x => x.1 = k) with
  | some x => some x.2
  | none => f k

/-- Map after several rounds. -/
def roundsSpec : (Bytes → Option Bytes) → List (List (List (Bytes × Bytes))) → Bytes → Option Bytes
  | f, [] => f
  | f, hs :: r => roundsSpec (roundSpec f hs) r

/-- Requirements for the updates `hs` (a list for each process): keys are C
strings, values are not empty, all values set for a key agree, a value is equal
to the previous one or none is a prefix of the other, and there is at least one
change of at least 3 bytes. -/
structure RoundOK (f : Bytes → Option Bytes) (hs : List (List (Bytes × Bytes))) : Prop where
  valid : ∀ h ∈ hs, ∀ x ∈ h, 0 ∉ x.1 ∧ x.2 ≠ []
  agree : ∀ h ∈ hs, ∀ h' ∈ hs, ∀ k v w, (k, v) ∈ h → (k, w) ∈ h' → v = w
  compat : ∀ h ∈ hs, ∀ k v, (k, v) ∈ h → ∀ old, f k = some old → old = v ∨ Unrelated old v
  change : ∃ h ∈ hs, ∃ k v, (k, v) ∈ h ∧ f k ≠ some v ∧ 3 ≤ k.length + v.length

def RoundsOK : (Bytes → Option Bytes) → List (List (List (Bytes × Bytes))) → Prop
  | _, [] => True
  | f, hs :: r => RoundOK f hs ∧ RoundsOK (roundSpec f hs) r

/-- One round: every process does its updates, then all synchronize. -/
def worldRound (q : List KEnt → List KEnt) (hs : List (List (Bytes × Bytes))) (ss : List KVS) : Option (List KVS) :=
  (allSome (List.zipWith setAll hs ss)).bind fun ss => (kvsSync q ss).bind allSome

def worldRounds (q : List KEnt → List KEnt) : List (List (List (Bytes × Bytes))) → List KVS → Option (List KVS)
  | [], ss => some ss
  | hs :: r, ss => (worldRound q hs ss).bind (worldRounds q r)

/-! ## Lemmas -/

/-- Store after synchronization. -/
structure Clean (f : Bytes → Option Bytes) (s : KVS) : Prop where
  inv : SInv s []
  sync : s.inSync = false
  val : ∀ k, entVal s.ent k = f k
  flag : ∀ k, entFlag s.ent k = false

/-- Store after updates with values `f`; `j` is the journal. -/
structure Dirty (f : Bytes → Option Bytes) (h j : List (Bytes × Bytes)) (s : KVS) : Prop where
  inv : SInv s j
  sync : s.inSync = false
  sub : ∀ x ∈ j, x ∈ h ∧ f x.1 ≠ some x.2
  nodup : (j.map (·.1)).Nodup
  val : ∀ k, entVal s.ent k = match j.find? (fun x => x.1 = k) with | some x => some x.2 | none => f k
  flag : ∀ k, entFlag s.ent k = j.any (fun x => x.1 = k)
  all : ∀ x ∈ h, f x.1 = some x.2 ∨ x ∈ j

theorem setAll_dirty {f : Bytes → Option Bytes} : ∀ {h h0 j : List (Bytes × Bytes)} {s : KVS}, Dirty f h0 j s →
    (∀ k v w, (k, v) ∈ h0 ++ h → (k, w) ∈ h0 ++ h → v = w) →
    (∀ k v, (k, v) ∈ h → ∀ old, f k = some old → old = v ∨ Unrelated old v) →
    ∃ s' j', setAll h s = some s' ∧ Dirty f (h0 ++ h) j' s'
  | [], h0, j, s, hd, _, _ => ⟨s, j, rfl, by simpa using hd⟩
  | (k, v) :: h, h0, j, s, hd, hag, hc => by
    have hrest : ∀ s1 j1, kvsSet s k v = some s1 → Dirty f (h0 ++ [(k, v)]) j1 s1 →
        ∃ s' j', setAll ((k, v) :: h) s = some s' ∧ Dirty f (h0 ++ (k, v) :: h) j' s' := by
      intro s1 j1 hs1 hd1
      obtain ⟨s', j', g1, g2⟩ := setAll_dirty (h := h) hd1 (by simpa using hag)
        (fun k' v' hm => hc k' v' (List.mem_cons_of_mem _ hm))
      refine ⟨s', j', ?_, by simpa using g2⟩
      rw [setAll, hs1, Option.bind_some, g1]
    by_cases hin : (k, v) ∈ j
    · refine hrest s j (kvsSet_prefix hd.inv.ent ?_ (List.prefix_refl v)) ?_
      · rw [hd.val]
        have : j.find? (fun x => x.1 = k) = some (k, v) := by
          cases hf : j.find? (fun x => x.1 = k) with
          | none =>
            rw [List.find?_eq_none] at hf
            have := hf (k, v) hin
            simp at this
          | some x =>
            have h1 := List.mem_of_find?_eq_some hf
            have h2 := List.find?_some hf
            simp only [decide_eq_true_eq] at h2
            obtain ⟨a, b⟩ := x
            simp only at h2
            subst h2
            rw [hag a b v (List.mem_append.2 (.inl (hd.sub _ h1).1)) (by simp)]
        rw [this]
      · exact ⟨hd.inv, hd.sync, fun x hx => ⟨List.mem_append.2 (.inl (hd.sub x hx).1), (hd.sub x hx).2⟩, hd.nodup, hd.val,
          hd.flag, fun x hx => by
            rcases List.mem_append.1 hx with hx | hx
            · exact hd.all x hx
            · rw [List.mem_singleton] at hx
              subst hx
              exact .inr hin⟩
    · have hnk : ∀ x ∈ j, x.1 ≠ k := by
        rintro ⟨a, b⟩ hx rfl
        have := hag a b v (List.mem_append.2 (.inl (hd.sub _ hx).1)) (by simp)
        subst this
        exact hin hx
      have hfn : j.find? (fun x => x.1 = k) = none := by
        rw [List.find?_eq_none]
        intro x hx
        simpa using hnk x hx
      have hval : entVal s.ent k = f k := by rw [hd.val, hfn]
      by_cases hf : f k = some v
      · refine hrest s j (kvsSet_prefix hd.inv.ent (hval.trans hf) (List.prefix_refl v)) ?_
        exact ⟨hd.inv, hd.sync, fun x hx => ⟨List.mem_append.2 (.inl (hd.sub x hx).1), (hd.sub x hx).2⟩, hd.nodup, hd.val,
          hd.flag, fun x hx => by
            rcases List.mem_append.1 hx with hx | hx
            · exact hd.all x hx
            · rw [List.mem_singleton] at hx
              subst hx
              exact .inl hf⟩
      · obtain ⟨s1, g1, g2, g3, g4, g5⟩ := kvsSet_change (k := k) (v := v) hd.inv hd.sync (by
          intro old hold
          rw [hval] at hold
          rcases hc k v (by simp) old hold with rfl | hu
          · exact absurd hold hf
          · exact ⟨hu.2, hu.1⟩)
        refine hrest s1 _ g1 ⟨g2, g3, ?_, ?_, ?_, ?_, ?_⟩
        · intro x hx
          rcases List.mem_append.1 hx with hx | hx
          · exact ⟨List.mem_append.2 (.inl (hd.sub x hx).1), (hd.sub x hx).2⟩
          · rw [List.mem_singleton] at hx
            subst hx
            exact ⟨by simp, hf⟩
        · rw [List.map_append, List.nodup_append]
          refine ⟨hd.nodup, by simp, ?_⟩
          intro a ha b hb
          rw [List.mem_map] at ha
          obtain ⟨x, hx, rfl⟩ := ha
          simp only [List.map_cons, List.map_nil, List.mem_singleton] at hb
          subst hb
          exact hnk x hx
        · intro k'
          rw [g4, List.find?_append]
          split
          · rename_i hk
            subst hk
            rw [hfn]
            simp
          · rename_i hk
            rw [hd.val]
            have : ¬ k = k' := fun h => hk h.symm
            cases hj : j.find? (fun x => x.1 = k') with
            | none => simp [this]
            | some x => simp
        · intro k'
          rw [g5, List.any_append]
          split
          · rename_i hk
            subst hk
            simp
          · rename_i hk
            rw [hd.flag]
            have : ¬ k = k' := fun h => hk h.symm
            simp [this]
        · intro x hx
          rcases List.mem_append.1 hx with hx | hx
          · rcases hd.all x hx with h' | h'
            · exact .inl h'
            · exact .inr (List.mem_append.2 (.inl h'))
          · rw [List.mem_singleton] at hx
            subst hx
            exact .inr (by simp)

theorem Clean.dirty {f s} (h : Clean f s) : Dirty f [] [] s :=
  ⟨h.inv, h.sync, by simp, by simp, by simpa using h.val, by simpa using h.flag, by simp⟩

/-- Applying changes in a synchronization. -/
theorem setAll_sync : ∀ {L : List (Bytes × Bytes)} {s : KVS}, KEInv s.ent s.sortedUpto → s.inSync = true →
    (L.map (·.1)).Nodup →
    (∀ x ∈ L, entVal s.ent x.1 = some x.2 ∨
      ((∀ old, entVal s.ent x.1 = some old → Unrelated old x.2) ∧ entFlag s.ent x.1 = false)) →
    ∃ s', setAll L s = some s' ∧ KEInv s'.ent s'.sortedUpto ∧ s'.inSync = true ∧ s'.changes = s.changes ∧
      (∀ k, entVal s'.ent k = match L.find? (fun x => x.1 = k) with | some x => some x.2 | none => entVal s.ent k)
  | [], s, h, hs, _, _ => ⟨s, rfl, h, hs, rfl, fun k => rfl⟩
  | (k, v) :: L, s, h, hs, hn, hx => by
    rw [List.map_cons, List.nodup_cons] at hn
    have step : ∃ s1, kvsSet s k v = some s1 ∧ KEInv s1.ent s1.sortedUpto ∧ s1.inSync = true ∧ s1.changes = s.changes ∧
        (∀ k', entVal s1.ent k' = if k' = k then some v else entVal s.ent k') ∧
        (∀ k', entFlag s1.ent k' = entFlag s.ent k') := by
      rcases hx (k, v) (by simp) with h1 | ⟨h1, h2⟩
      · refine ⟨s, kvsSet_prefix h h1 (List.prefix_refl v), h, hs, rfl, ?_, fun _ => rfl⟩
        intro k'
        split
        · rename_i hk; rw [hk]; exact h1
        · rfl
      · exact kvsSet_sync h hs (fun old ho => ⟨(h1 old ho).2, (h1 old ho).1⟩) h2
    obtain ⟨s1, g1, g2, g3, g4, g5, g6⟩ := step
    have hne : ∀ x ∈ L, x.1 ≠ k := fun x hx hk => hn.1 (hk ▸ List.mem_map_of_mem (f := (·.1)) hx)
    obtain ⟨s', k1, k2, k3, k4, k5⟩ := setAll_sync (L := L) g2 g3 hn.2 (by
      intro x hm
      rw [g5, g6, if_neg (hne x hm)]
      exact hx x (List.mem_cons_of_mem _ hm))
    refine ⟨s', by rw [setAll, g1, Option.bind_some, k1], k2, k3, k4.trans g4, ?_⟩
    intro k'
    rw [k5, List.find?_cons]
    by_cases hk : k = k'
    · subst hk
      have : L.find? (fun x => x.1 = k) = none := by
        rw [List.find?_eq_none]
        intro x hm
        simpa using hne x hm
      simp [this, g5]
    · have hk' : ¬ k' = k := fun h => hk h.symm
      simp only [hk, decide_false]
      rw [g5, if_neg hk']

theorem syncEnd_spec {q} (hq : IsQsort q) {f : Bytes → Option Bytes} {s : KVS} (h : KEInv s.ent s.sortedUpto)
    (hc : s.changes.offSize / 2 ≤ s.changes.entSize) (hv : ∀ k, entVal s.ent k = f k) :
    ∃ s', syncEnd q s = some s' ∧ Clean f s' := by
  unfold syncEnd
  rw [chSetSize_clear]
  refine ⟨_, rfl, ?_⟩
  let s1 : KVS := ⟨s.ent.map (fun e => { e with updated := false }), s.sortedUpto,
    { s.changes with off := [], data := [], ent := [] }, false⟩
  have hk : s1.ent.map (·.key) = s.ent.map (·.key) := by
    simp only [s1, List.map_map]
    rfl
  have h1 : SInv s1 [] := ⟨einv_keys h hk, ⟨rfl, rfl, rfl, Nat.zero_le _, Nat.zero_le _, hc⟩⟩
  obtain ⟨g1, g2, g3⟩ := kvsSort_spec hq h1
  refine ⟨g1, rfl, fun k => (g2 k).trans ?_, fun k => (g3 k).trans ?_⟩
  · rw [← hv k]
    unfold entVal
    simp only [s1, List.find?_map, Option.bind_map]
    rfl
  · unfold entFlag
    simp only [s1, List.find?_map, Option.map_map]
    cases List.find? ((fun e : KEnt => decide (e.key = k)) ∘ fun e => { key := e.key, value := e.value, updated := false })
      s.ent <;> rfl

/-- Result of merging so far: written as `L`, with entries `a`. -/
structure DRep (c : Changes) (L a : List (Bytes × Bytes)) : Prop where
  off : c.off = jOff L
  data : c.data = jData L
  src : SrcRep c a
  perm : a.Perm L

theorem jOff_odd (l) : (jOff l).length = 0 ∨ (jOff l).length % 2 = 1 := by
  rw [jOff_length]
  split <;> omega

theorem syncLoop_spec {q} (hq : IsQsort q) : ∀ (js : List (List (Bytes × Bytes))) (src dst recvd : Changes) {L a},
    DRep dst L a → recvd.offSize / 2 ≤ recvd.entSize →
    (∀ j ∈ js, (∀ x ∈ j, 0 ∉ x.1 ∧ x.2 ≠ []) ∧ (j.map (·.1)).Nodup) →
    (∀ j ∈ L :: js, ∀ j' ∈ L :: js, NoConf j j') →
    ∃ d L' a', syncLoop q (js.map fun j => (jOff j, jData j)) src dst recvd = some d ∧ DRep d L' a' ∧
      (∀ x, x ∈ L' ↔ ∃ j ∈ L :: js, x ∈ j)
  | [], src, dst, recvd, L, a, hd, _, _, _ => ⟨dst, L, a, rfl, hd, by simp⟩
  | j :: js, src, dst, recvd, L, a, hd, hr, hj, hn => by
    obtain ⟨r1, hr1⟩ := ensureSize_some (c := { recvd with off := [], data := [], ent := [] }) rfl
      (jOff j).length (jData j).length
    obtain ⟨e1, e2, e3, e4, e5, _, _, e8, e9⟩ := ensureSize_caps hr1
    have e9 := e9 hr
    simp only [List.map_cons, syncLoop, chSetSize_clear, hr1, Option.bind_eq_bind, Option.bind_some]
    by_cases h0 : j = []
    · subst h0
      have hl : (jOff []).length = 0 := rfl
      have hl2 : (jData []).length = 0 := rfl
      rw [if_pos hl, if_pos hl2]
      obtain ⟨d, L', a', g1, g2, g3⟩ := syncLoop_spec hq js src dst r1 hd e9
        (fun x hx => hj x (List.mem_cons_of_mem _ hx)) (by
          intro x hx y hy
          refine hn x ?_ y ?_
          · simp only [List.mem_cons] at hx ⊢; tauto
          · simp only [List.mem_cons] at hy ⊢; tauto)
      refine ⟨d, L', a', g1, g2, ?_⟩
      intro x
      rw [g3]
      simp
    · have hlen : (jOff j).length = 2 * j.length + 1 := by rw [jOff_length, if_neg h0]
      rw [if_neg (by omega), if_pos (jData_pos h0)]
      have hset : chSetSize r1 (jOff j) (jData j) = some { r1 with off := jOff j, data := jData j, ent := [] } := by
        unfold chSetSize
        rw [if_pos ⟨jOff_odd j, e4, e5, e8⟩]
      rw [hset, Option.bind_some]
      have hj1 := hj j (by simp)
      obtain ⟨c', b, k1, k2, k3, k4, k5, k6⟩ := sorted_journal hq
        (c := { r1 with off := jOff j, data := jData j, ent := [] }) (l := j) ⟨rfl, rfl, rfl, e4, e5, e9⟩ hj1.1 hj1.2
      rw [k1, Option.bind_some]
      obtain ⟨d, m, g1, g2, g3, g4⟩ := chMerge_spec src hd.src k2 (by
        intro k v w hv hw
        exact hn L (by simp) j (by simp) k v w (hd.perm.mem_iff.1 hv) (k3.mem_iff.1 hw))
      rw [g1, Option.bind_some]
      have hmem : ∀ x, x ∈ m ↔ x ∈ L ∨ x ∈ j := by
        intro x
        rw [g4, hd.perm.mem_iff, k3.mem_iff]
      obtain ⟨d', L', a', f1, f2, f3⟩ := syncLoop_spec hq js dst d c' (L := m) (a := m)
        ⟨g2.off, g2.data, g2.src g3, .refl _⟩ (by rw [k6.1, k6.2]; exact e9)
        (fun x hx => hj x (List.mem_cons_of_mem _ hx)) (by
          have conv : ∀ y ∈ m :: js, ∀ x ∈ y, ∃ z ∈ L :: j :: js, x ∈ z := by
            intro y hy x hx
            rcases List.mem_cons.1 hy with rfl | hy
            · rcases (hmem x).1 hx with h | h
              · exact ⟨L, by simp, h⟩
              · exact ⟨j, by simp, h⟩
            · exact ⟨y, by simp [hy], hx⟩
          intro x hx y hy k v w hv hw
          obtain ⟨z1, hz1, hv⟩ := conv x hx _ hv
          obtain ⟨z2, hz2, hw⟩ := conv y hy _ hw
          exact hn z1 hz1 z2 hz2 k v w hv hw)
      refine ⟨d', L', a', f1, f2, ?_⟩
      intro x
      rw [f3]
      simp only [List.mem_cons]
      constructor
      · rintro ⟨y, rfl | hy, hx⟩
        · rcases (hmem x).1 hx with h | h
          · exact ⟨L, .inl rfl, h⟩
          · exact ⟨j, .inr (.inl rfl), h⟩
        · exact ⟨y, .inr (.inr hy), hx⟩
      · rintro ⟨y, rfl | rfl | hy, hx⟩
        · exact ⟨m, .inl rfl, (hmem x).2 (.inl hx)⟩
        · exact ⟨m, .inl rfl, (hmem x).2 (.inr hx)⟩
        · exact ⟨y, .inr hy, hx⟩

theorem allSome_map {α β γ} (l : List α) (f : α → Option β) (g : α → γ) (P : γ → β → Prop)
    (h : ∀ x ∈ l, ∃ y, f x = some y ∧ P (g x) y) : ∃ r, allSome (l.map f) = some r ∧ List.Forall₂ P (l.map g) r := by
  induction l with
  | nil => exact ⟨[], rfl, .nil⟩
  | cons a l ih =>
    obtain ⟨y, h1, h2⟩ := h a (by simp)
    obtain ⟨r, h3, h4⟩ := ih (fun x hx => h x (List.mem_cons_of_mem _ hx))
    refine ⟨y :: r, ?_, .cons h2 h4⟩
    rw [List.map_cons, h1, allSome, h3]
    rfl

/-- State of one process: updates, journal, store. -/
abbrev PState := List (Bytes × Bytes) × List (Bytes × Bytes) × KVS

theorem jData_min {L : List (Bytes × Bytes)} (h : ∀ x ∈ L, x.2 ≠ []) : 2 * L.length ≤ (jData L).length := by
  induction L with
  | nil => simp
  | cons x L ih =>
    have h1 := List.length_pos_of_ne_nil (h x (by simp))
    have h2 := ih (fun y hy => h y (List.mem_cons_of_mem _ hy))
    rw [jData_len_cons, List.length_cons]
    omega

theorem jData_more {L : List (Bytes × Bytes)} (h : ∀ x ∈ L, x.2 ≠ []) {x} (hx : x ∈ L)
    (h3 : 3 ≤ x.1.length + x.2.length) : 2 * L.length + 2 ≤ (jData L).length := by
  induction L with
  | nil => cases hx
  | cons y L ih =>
    have h1 := List.length_pos_of_ne_nil (h y (by simp))
    rw [jData_len_cons, List.length_cons]
    rcases List.mem_cons.1 hx with rfl | hx
    · have h2 := jData_min (fun y hy => h y (List.mem_cons_of_mem _ hy))
      omega
    · have h2 := ih (fun y hy => h y (List.mem_cons_of_mem _ hy)) hx
      omega

theorem find_key {L : List (Bytes × Bytes)} {k : Bytes} {x} (h : L.find? (fun x => x.1 = k) = some x) :
    x ∈ L ∧ x.1 = k :=
  ⟨List.mem_of_find?_eq_some h, by simpa using List.find?_some h⟩

theorem find_key_none {L : List (Bytes × Bytes)} {k : Bytes} (h : L.find? (fun x => x.1 = k) = none) :
    ∀ x ∈ L, x.1 ≠ k := by
  intro x hx
  rw [List.find?_eq_none] at h
  simpa using h x hx

/-- Applying the merged changes in one process. -/
theorem apply_result {f : Bytes → Option Bytes} {ts : List PState} (hd : ∀ t ∈ ts, Dirty f t.1 t.2.1 t.2.2)
    (hok : RoundOK f (ts.map (·.1))) {L : List (Bytes × Bytes)} (hn : (L.map (·.1)).Nodup)
    (hL : ∀ x, x ∈ L ↔ ∃ t ∈ ts, x ∈ t.2.1) {t : PState} (ht : t ∈ ts) (c : Changes) :
    ∃ s', setAll L { t.2.2 with inSync := true, changes := c } = some s' ∧ KEInv s'.ent s'.sortedUpto ∧ s'.changes = c ∧
      ∀ k, entVal s'.ent k = roundSpec f (ts.map (·.1)) k := by
  have dt := hd t ht
  have hag : ∀ u ∈ ts, ∀ u' ∈ ts, ∀ k v w, (k, v) ∈ u.1 → (k, w) ∈ u'.1 → v = w := fun u hu u' hu' =>
    hok.agree u.1 (List.mem_map_of_mem hu) u'.1 (List.mem_map_of_mem hu')
  obtain ⟨s', h1, h2, h3, h4, h5⟩ := setAll_sync (L := L) (s := { t.2.2 with inSync := true, changes := c })
    dt.inv.ent rfl hn (by
      rintro ⟨k, v⟩ hx
      obtain ⟨u, hu, hxu⟩ := (hL _).1 hx
      have du := hd u hu
      have hsub := du.sub _ hxu
      simp only
      rw [dt.val, dt.flag]
      cases hf : t.2.1.find? (fun x => x.1 = k) with
      | some y =>
        refine .inl ?_
        obtain ⟨y1, y2⟩ := find_key hf
        obtain ⟨a, b⟩ := y
        simp only at y2 ⊢
        subst y2
        rw [hag t ht u hu a b v (dt.sub _ y1).1 hsub.1]
      | none =>
        have hno := find_key_none hf
        refine .inr ⟨?_, ?_⟩
        · intro old ho
          rcases hok.compat u.1 (List.mem_map_of_mem hu) k v hsub.1 old ho with rfl | h
          · exact absurd ho hsub.2
          · exact h
        · rw [List.any_eq_false]
          intro x hx
          simpa using hno x hx)
  refine ⟨s', h1, h2, h4, ?_⟩
  intro k
  rw [h5]
  unfold roundSpec
  simp only
  cases hf : L.find? (fun x => x.1 = k) with
  | some x =>
    obtain ⟨y1, y2⟩ := find_key hf
    obtain ⟨a, b⟩ := x
    simp only at y2 ⊢
    subst y2
    obtain ⟨u, hu, hxu⟩ := (hL _).1 y1
    have hxu := ((hd u hu).sub _ hxu).1
    cases hg : (ts.map (·.1)).flatten.find? (fun x => x.1 = a) with
    | none =>
      exact absurd rfl (find_key_none hg (a, b) (List.mem_flatten.2 ⟨u.1, List.mem_map_of_mem hu, hxu⟩))
    | some y =>
      obtain ⟨z1, z2⟩ := find_key hg
      obtain ⟨a', b'⟩ := y
      simp only at z2 ⊢
      subst z2
      obtain ⟨l, hl, hm⟩ := List.mem_flatten.1 z1
      rw [List.mem_map] at hl
      obtain ⟨u', hu', rfl⟩ := hl
      rw [hag u hu u' hu' a' b b' hxu hm]
  | none =>
    have hno := find_key_none hf
    have hfn : t.2.1.find? (fun x => x.1 = k) = none := by
      rw [List.find?_eq_none]
      intro x hx
      simpa using hno x ((hL x).2 ⟨t, ht, hx⟩)
    simp only
    rw [dt.val, hfn]
    cases hg : (ts.map (·.1)).flatten.find? (fun x => x.1 = k) with
    | none => rfl
    | some y =>
      obtain ⟨z1, z2⟩ := find_key hg
      obtain ⟨l, hl, hm⟩ := List.mem_flatten.1 z1
      rw [List.mem_map] at hl
      obtain ⟨u', hu', rfl⟩ := hl
      rcases (hd u' hu').all y hm with h | h
      · simp only
        rw [← h, z2]
      · exact absurd z2 (hno y ((hL y).2 ⟨u', hu', h⟩))

theorem forall₂_right {α β} {P : α → β → Prop} {Q : β → Prop} {l : List α} {r : List β} (h : List.Forall₂ P l r)
    (hq : ∀ a b, P a b → Q b) : ∀ b ∈ r, Q b := by
  induction h with
  | nil => simp
  | cons h _ ih =>
    intro b hb
    rcases List.mem_cons.1 hb with rfl | hb
    · exact hq _ _ h
    · exact ih b hb

theorem forall₂_map_right {α β} {l : List α} {r : List β} {f : α → β} (h : List.Forall₂ (fun a b => b = f a) l r) :
    r = l.map f := by
  induction h with
  | nil => rfl
  | cons h _ ih => rw [h, ih]; rfl

/-- What is sent, the merged changes, and the results of a synchronization. -/
theorem kvsSync_parts {q} (hq : IsQsort q) {f : Bytes → Option Bytes} {m : PState} {ts : List PState}
    (hd : ∀ t ∈ m :: ts, Dirty f t.1 t.2.1 t.2.2) (hok : RoundOK f ((m :: ts).map (·.1))) :
    ∃ (d : Changes) (L : List (Bytes × Bytes)) (s0 : KVS) (r : List KVS),
      allSome ((ts.map (·.2.2)).map fun s => syncSend { s with inSync := true }) =
        some ((ts.map (·.2.1)).map fun j => (jOff j, jData j)) ∧
      syncMaster q { m.2.2 with inSync := true } ((ts.map (·.2.1)).map fun j => (jOff j, jData j)) = some d ∧
      d.off = jOff L ∧ d.data = jData L ∧ (L.map (·.1)).Nodup ∧ (∀ x, x ∈ L ↔ ∃ t ∈ m :: ts, x ∈ t.2.1) ∧
      (chApply d { m.2.2 with inSync := true }).bind (syncEnd q) = some s0 ∧
      allSome ((ts.map (·.2.2)).map fun s => (syncRecv { s with inSync := true } d.off d.data).bind (syncEnd q)) = some r ∧
      r.length = ts.length ∧ ∀ s ∈ s0 :: r, Clean (roundSpec f ((m :: ts).map (·.1))) s := by
  have hvalid : ∀ t ∈ m :: ts, ∀ x ∈ t.2.1, 0 ∉ x.1 ∧ x.2 ≠ [] := fun t ht x hx =>
    hok.valid t.1 (List.mem_map_of_mem ht) x ((hd t ht).sub x hx).1
  -- journals sent
  have hsend : allSome ((ts.map (·.2.2)).map fun s => syncSend { s with inSync := true }) =
      some ((ts.map (·.2.1)).map fun j => (jOff j, jData j)) := by
    obtain ⟨r, h1, h2⟩ := allSome_map ts (fun t => syncSend { t.2.2 with inSync := true }) (·.2.1)
      (fun j y => y = (jOff j, jData j)) (by
        intro t ht
        have hj := (hd t (List.mem_cons_of_mem _ ht)).inv.jrn
        refine ⟨_, ?_, rfl⟩
        unfold syncSend
        simp only [hj.off, hj.data]
        rw [if_pos]
        refine ⟨jOff_odd _, ?_⟩
        split
        · rename_i h0
          refine jData_pos ?_
          intro h
          rw [h] at h0
          exact absurd h0 (by simp [jOff])
        · rename_i h0
          rw [jOff_length] at h0
          split at h0
          · rename_i h; rw [h]; rfl
          · omega)
    rw [List.map_map]
    rw [forall₂_map_right h2] at h1
    exact h1
  -- master
  have hj0 := (hd m (by simp)).inv.jrn
  obtain ⟨own, a, o1, o2, o3, o4, o5, _⟩ := sorted_journal hq hj0 (hvalid m (by simp)) (hd m (by simp)).nodup
  obtain ⟨d, L, b, d1, d2, d3⟩ := syncLoop_spec hq (ts.map (·.2.1)) chInit own chInit (L := m.2.1) (a := a)
    ⟨o4.trans hj0.off, o5.trans hj0.data, o2, o3⟩ (by simp [chInit]) (by
      intro j hj
      rw [List.mem_map] at hj
      obtain ⟨t, ht, rfl⟩ := hj
      exact ⟨hvalid t (List.mem_cons_of_mem _ ht), (hd t (List.mem_cons_of_mem _ ht)).nodup⟩) (by
      have conv : ∀ j ∈ m.2.1 :: ts.map (·.2.1), ∃ t ∈ m :: ts, j = t.2.1 := by
        intro j hj
        rcases List.mem_cons.1 hj with rfl | hj
        · exact ⟨m, by simp, rfl⟩
        · rw [List.mem_map] at hj
          obtain ⟨t, ht, rfl⟩ := hj
          exact ⟨t, List.mem_cons_of_mem _ ht, rfl⟩
      intro j hj j' hj' k v w hv hw
      obtain ⟨t, ht, rfl⟩ := conv j hj
      obtain ⟨t', ht', rfl⟩ := conv j' hj'
      exact hok.agree t.1 (List.mem_map_of_mem ht) t'.1 (List.mem_map_of_mem ht') k v w
        ((hd t ht).sub _ hv).1 ((hd t' ht').sub _ hw).1)
  have hL : ∀ x, x ∈ L ↔ ∃ t ∈ m :: ts, x ∈ t.2.1 := by
    intro x
    rw [d3]
    constructor
    · rintro ⟨j, hj, hx⟩
      rcases List.mem_cons.1 hj with rfl | hj
      · exact ⟨m, by simp, hx⟩
      · rw [List.mem_map] at hj
        obtain ⟨t, ht, rfl⟩ := hj
        exact ⟨t, List.mem_cons_of_mem _ ht, hx⟩
    · rintro ⟨t, ht, hx⟩
      rcases List.mem_cons.1 ht with rfl | ht
      · exact ⟨_, by simp, hx⟩
      · exact ⟨_, List.mem_cons_of_mem _ (List.mem_map_of_mem ht), hx⟩
  have hLv : ∀ x ∈ L, 0 ∉ x.1 ∧ x.2 ≠ [] := by
    intro x hx
    obtain ⟨t, ht, hx⟩ := (hL x).1 hx
    exact hvalid t ht x hx
  have hLn : (L.map (·.1)).Nodup := by
    refine (d2.perm.map (·.1)).nodup_iff.1 ?_
    unfold List.Nodup
    rw [List.pairwise_map]
    exact List.Pairwise.imp (fun h => strcmp_neg_ne h) d2.src.sorted
  have hLne : L ≠ [] ∧ 2 * L.length + 2 ≤ (jData L).length := by
    obtain ⟨h, hh, k, v, hkv, hne, h3⟩ := hok.change
    rw [List.mem_map] at hh
    obtain ⟨t, ht, rfl⟩ := hh
    have hm : (k, v) ∈ L := by
      rcases (hd t ht).all (k, v) hkv with h | h
      · exact absurd h hne
      · exact (hL _).2 ⟨t, ht, h⟩
    exact ⟨List.ne_nil_of_mem hm, jData_more (fun x hx => (hLv x hx).2) hm h3⟩
  have hmaster : syncMaster q { m.2.2 with inSync := true } ((ts.map (·.2.1)).map fun j => (jOff j, jData j)) = some d := by
    unfold syncMaster
    simp only [o1, Option.bind_eq_bind, Option.bind_some, d1]
    rw [if_pos]
    rw [d2.off, d2.data, jOff_length, if_neg hLne.1]
    omega
  have hres : ∀ t ∈ m :: ts, ∀ c : Changes, c.offSize / 2 ≤ c.entSize →
      ∃ s', (setAll L { t.2.2 with inSync := true, changes := c }).bind (syncEnd q) = some s' ∧
        Clean (roundSpec f ((m :: ts).map (·.1))) s' := by
    intro t ht c hc
    obtain ⟨s1, g1, g2, g3, g4⟩ := apply_result hd hok hLn hL ht c
    rw [g1, Option.bind_some]
    exact syncEnd_spec hq g2 (by rw [g3]; exact hc) g4
  obtain ⟨s0, hs0, hc0⟩ := hres m (by simp) m.2.2.changes hj0.entLe
  have hslaves : ∀ t ∈ ts, ∃ s', (syncRecv { t.2.2 with inSync := true } d.off d.data).bind (syncEnd q) = some s' ∧
      Clean (roundSpec f ((m :: ts).map (·.1))) s' := by
    intro t ht
    have hj := (hd t (List.mem_cons_of_mem _ ht)).inv.jrn
    unfold syncRecv
    rw [d2.off, d2.data]
    have hlen : (jOff L).length = 2 * L.length + 1 := by rw [jOff_length, if_neg hLne.1]
    rw [if_pos (by omega), if_pos (by omega)]
    obtain ⟨c1, hc1⟩ := ensureSize_some (c := t.2.2.changes) hj.ent (jOff L).length (jData L).length
    obtain ⟨e1, e2, e3, e4, e5, _, _, e8, e9⟩ := ensureSize_caps hc1
    have hset : chSetSize c1 (jOff L) (jData L) = some { c1 with off := jOff L, data := jData L, ent := [] } := by
      unfold chSetSize
      rw [if_pos ⟨jOff_odd L, e4, e5, e8⟩]
    simp only [hc1, Option.bind_eq_bind, Option.bind_some, hset]
    rw [chApply_spec (l := L) rfl rfl hLv]
    exact hres t (List.mem_cons_of_mem _ ht) _ (e9 hj.entLe)
  obtain ⟨r, hr1, hr2⟩ := allSome_map ts
    (fun t => (syncRecv { t.2.2 with inSync := true } d.off d.data).bind (syncEnd q)) id
    (fun _ s' => Clean (roundSpec f ((m :: ts).map (·.1))) s') hslaves
  have hr1' : allSome ((ts.map (·.2.2)).map fun s => (syncRecv { s with inSync := true } d.off d.data).bind (syncEnd q)) = some r := by
    rw [List.map_map]
    exact hr1
  refine ⟨d, L, s0, r, hsend, hmaster, d2.off, d2.data, hLn, hL, ?_, hr1', ?_, ?_⟩
  · rw [chApply_spec d2.off d2.data hLv]
    exact hs0
  · have := hr2.length_eq
    rw [List.length_map] at this
    exact this.symm
  · intro s hs
    rcases List.mem_cons.1 hs with rfl | hs
    · exact hc0
    · exact forall₂_right hr2 (fun _ _ h => h) s hs

theorem kvsSync_spec {q} (hq : IsQsort q) {f : Bytes → Option Bytes} {ts : List PState} 
    (hd : ∀ t ∈ ts, Dirty f t.1 t.2.1 t.2.2) (hok : RoundOK f (ts.map (·.1))) :
    ∃ r, (kvsSync q (ts.map (·.2.2))).bind allSome = some r ∧ r.length = ts.length ∧
      ∀ s ∈ r, Clean (roundSpec f (ts.map (·.1))) s := by
  match ts, hd, hok with
  | [], _, _ => exact ⟨[], rfl, rfl, by simp⟩
  | m :: ts, hd, hok =>
    obtain ⟨d, L, s0, r, h1, h2, _, _, _, _, h3, h4, h5, h6⟩ := kvsSync_parts hq hd hok
    refine ⟨s0 :: r, ?_, by simp [h5], h6⟩
    rw [List.map_cons, kvsSync]
    simp only [h1, h2, Option.bind_eq_bind, Option.bind_some]
    rw [h3, allSome, h4]
    rfl

/-- Updates by all processes. -/
theorem setAll_world {f : Bytes → Option Bytes} : ∀ (hs : List (List (Bytes × Bytes))) (ss : List KVS), hs.length = ss.length →
    (∀ s ∈ ss, Clean f s) →
    (∀ h ∈ hs, ∀ k v w, (k, v) ∈ h → (k, w) ∈ h → v = w) →
    (∀ h ∈ hs, ∀ k v, (k, v) ∈ h → ∀ old, f k = some old → old = v ∨ Unrelated old v) →
    ∃ ts : List PState, allSome (List.zipWith setAll hs ss) = some (ts.map (·.2.2)) ∧ ts.map (·.1) = hs ∧
      ∀ t ∈ ts, Dirty f t.1 t.2.1 t.2.2 := by
  intro hs
  induction hs with
  | nil => intro ss _ _ _ _; exact ⟨[], rfl, rfl, by simp⟩
  | cons h hs ih =>
    intro ss hl hc hag hco
    match ss, hl, hc with
    | s :: ss, hl, hc =>
      obtain ⟨ts, g1, g2, g3⟩ := ih ss (by simpa using hl) (fun s hs => hc s (List.mem_cons_of_mem _ hs))
        (fun h hh => hag h (List.mem_cons_of_mem _ hh)) (fun h hh => hco h (List.mem_cons_of_mem _ hh))
      obtain ⟨s', j', k1, k2⟩ := setAll_dirty (h := h) (hc s (by simp)).dirty (by simpa using hag h (by simp))
        (hco h (by simp))
      refine ⟨(h, j', s') :: ts, ?_, by simp [g2], ?_⟩
      · rw [List.zipWith_cons_cons, k1, allSome, g1]
        rfl
      · intro t ht
        rcases List.mem_cons.1 ht with rfl | ht
        · simpa using k2
        · exact g3 t ht

theorem worldRound_spec {q} (hq : IsQsort q) {f : Bytes → Option Bytes} {hs : List (List (Bytes × Bytes))} {ss : List KVS}
    (hl : hs.length = ss.length) (hc : ∀ s ∈ ss, Clean f s) (hok : RoundOK f hs) :
    ∃ r, worldRound q hs ss = some r ∧ r.length = ss.length ∧ ∀ s ∈ r, Clean (roundSpec f hs) s := by
  obtain ⟨ts, g1, g2, g3⟩ := setAll_world hs ss hl hc (fun h hh => hok.agree h hh h hh) hok.compat
  obtain ⟨r, h1, h2, h3⟩ := kvsSync_spec hq g3 (by rw [g2]; exact hok)
  rw [g2] at h3
  refine ⟨r, ?_, ?_, h3⟩
  · unfold worldRound
    rw [g1, Option.bind_some]
    exact h1
  · rw [h2, ← hl, ← g2, List.length_map]

theorem worldRounds_spec {q} (hq : IsQsort q) : ∀ (rs : List (List (List (Bytes × Bytes)))) {f : Bytes → Option Bytes}
    {ss : List KVS}, (∀ hs ∈ rs, hs.length = ss.length) → (∀ s ∈ ss, Clean f s) → RoundsOK f rs →
    ∃ r, worldRounds q rs ss = some r ∧ r.length = ss.length ∧ ∀ s ∈ r, Clean (roundsSpec f rs) s
  | [], f, ss, _, hc, _ => ⟨ss, rfl, rfl, hc⟩
  | hs :: rs, f, ss, hl, hc, hok => by
    obtain ⟨r, h1, h2, h3⟩ := worldRound_spec hq (hl hs (by simp)) hc hok.1
    obtain ⟨r', g1, g2, g3⟩ := worldRounds_spec hq rs (ss := r) (fun h hh => by rw [h2]; exact hl h (by simp [hh])) h3 hok.2
    exact ⟨r', by rw [worldRounds, h1, Option.bind_some, g1], by rw [g2, h2], g3⟩

theorem kvsNew_clean : Clean (fun _ => none) kvsNew := ⟨kvsNew_inv, rfl, fun _ => rfl, fun _ => rfl⟩

/-! ## Theorems -/

/-- C26 (partial): after any number of rounds of updates and synchronizations in
a world of `n` processes, no process aborted and all have the same values, those
of the updates of all processes.  Missing, as false: removed entries
(`C26_remove_aborts`), a key changed twice by a process
(`C26_double_change_aborts`), rounds without a change (`C26_no_change_aborts`) or
with changes of few bytes only (`C26_small_aborts`), and values which are
prefixes of each other (C25). -/
theorem C26_sync_partial {q} (hq : IsQsort q) (n : Nat) (rs : List (List (List (Bytes × Bytes))))
    (hl : ∀ hs ∈ rs, hs.length = n) (hok : RoundsOK (fun _ => none) rs) :
    ∃ ss, worldRounds q rs (List.replicate n kvsNew) = some ss ∧ ss.length = n ∧
      ∀ s ∈ ss, ∀ k, kvsGet s k = some (roundsSpec (fun _ => none) rs k) := by
  obtain ⟨r, h1, h2, h3⟩ := worldRounds_spec hq rs (ss := List.replicate n kvsNew) (by simpa using hl)
    (by intro s hs; rw [List.eq_of_mem_replicate hs]; exact kvsNew_clean) hok
  refine ⟨r, h1, by simpa using h2, ?_⟩
  intro s hs k
  rw [kvsGet_spec (h3 s hs).inv.ent, (h3 s hs).val]

/-! ## Synchronizations which abort -/

/-- Setting values for each operation history, starting from the map `m`. -/
def CompatFrom : (Bytes → Option Bytes) → List KOp → Prop
  | _, [] => True
  | m, o :: l => (∀ k v, o.sets? = some (k, v) → ∀ old, m k = some old → old = v ∨ Unrelated old v) ∧
      CompatFrom (kvStep m o) l

theorem kvsSet_extends {s s' : KVS} {j} (h : SInv s j) (hs : s.inSync = false) {k v : Bytes}
    (hr : kvsSet s k v = some s') : ∃ d, SInv s' (j ++ d) ∧ s'.inSync = false ∧
      (entVal s.ent k ≠ some v → ¬ (∃ old, entVal s.ent k = some old ∧ v <+: old) → (k, v) ∈ d) := by
  by_cases h1 : ∃ old, entVal s.ent k = some old ∧ v <+: old
  · obtain ⟨old, ho, hp⟩ := h1
    rw [kvsSet_prefix h.ent ho hp] at hr
    cases hr
    exact ⟨[], by simpa using h, hs, fun _ hn => absurd ⟨old, ho, hp⟩ hn⟩
  · by_cases h2 : ∃ old, entVal s.ent k = some old ∧ old <+: v
    · obtain ⟨old, ho, hp⟩ := h2
      rw [kvsSet_ext h.ent ho hp (by rintro rfl; exact h1 ⟨old, ho, hp⟩)] at hr
      cases hr
    · obtain ⟨s1, g1, g2, g3, _, _⟩ := kvsSet_change (k := k) (v := v) h hs
        (fun old ho => ⟨fun hp => h1 ⟨old, ho, hp⟩, fun hp => h2 ⟨old, ho, hp⟩⟩)
      rw [hr] at g1
      cases g1
      exact ⟨[(k, v)], g2, g3, fun _ _ => by simp⟩

/-- What an operation adds to the journal. -/
theorem runKOp_journal {q} (hq : IsQsort q) {s : KVS} {j} (h : SInv s j) (hs : s.inSync = false)
    {m : Bytes → Option Bytes} (hm : ∀ k, entVal s.ent k = m k) (o : KOp)
    (hc : ∀ k v, o.sets? = some (k, v) → ∀ old, m k = some old → old = v ∨ Unrelated old v) :
    ∃ s' d, runKOp q s o = some s' ∧ SInv s' (j ++ d) ∧ s'.inSync = false ∧ (∀ k, entVal s'.ent k = kvStep m o k) ∧
      (∀ k v, o.sets? = some (k, v) → m k ≠ some v → (k, v) ∈ d) ∧
      (∀ k, o = .remove k → m k ≠ none → (k, []) ∈ d) := by
  obtain ⟨s', j', g1, g2, g3, g4⟩ := runKOp_spec hq h hs hm o hc
  have hset : ∀ k v, o.sets? = some (k, v) → kvsSet s k v = some s' → ∃ s' d, runKOp q s o = some s' ∧ SInv s' (j ++ d) ∧
      s'.inSync = false ∧ (∀ k, entVal s'.ent k = kvStep m o k) ∧
      (∀ k v, o.sets? = some (k, v) → m k ≠ some v → (k, v) ∈ d) ∧ (∀ k, o = .remove k → m k ≠ none → (k, []) ∈ d) := by
    intro k v ho hr
    obtain ⟨d, e1, e2, e3⟩ := kvsSet_extends h hs hr
    refine ⟨s', d, g1, e1, e2, g4, ?_, ?_⟩
    · intro k' v' ho' hne
      rw [ho] at ho'
      cases ho'
      refine e3 (by rw [hm]; exact hne) ?_
      rintro ⟨old, hold, hp⟩
      rw [hm] at hold
      rcases hc k v ho old hold with rfl | hu
      · exact hne hold
      · exact hu.2 hp
    · intro k' hk
      rw [hk] at ho
      cases ho
  cases o with
  | set k v => exact hset k v rfl g1
  | sets k v => exact hset k (v ++ [0]) rfl g1
  | remove k =>
    simp only [runKOp, kvsRemove] at g1
    rcases kvsEntry_spec h.ent k with ⟨i, e, h1, h2, rfl⟩ | ⟨h1, h2⟩
    · obtain ⟨s1, h3, h4, h5, h6, _⟩ := kvsRemoveEntry_spec h hs h2
      rw [h1, Option.bind_some] at g1
      simp only [h3, Option.map_some, Option.some.injEq] at g1
      subst g1
      refine ⟨s1, _, ?_, h4, h5, g4, ?_, ?_⟩
      · simp only [runKOp, kvsRemove, h1, Option.bind_some, h3, Option.map_some]
      · intro k' v' ho; cases ho
      · intro k' hk _
        cases hk
        simp
    · rw [h1] at g1
      simp only [Option.bind_some, Option.map_some, Option.some.injEq] at g1
      subst g1
      refine ⟨s, [], ?_, by simpa using h, hs, g4, ?_, ?_⟩
      · simp only [runKOp, kvsRemove, h1, Option.bind_some, Option.map_some]
      · intro k' v' ho; cases ho
      · intro k' hk hne
        cases hk
        rw [← hm, entVal_none h2] at hne
        exact absurd rfl hne
  | clean =>
    have key : ∀ (n i : Nat) {s s' : KVS} {j}, SInv s j → s.inSync = false → kvsCleanGo n i s = some s' →
        ∃ d, SInv s' (j ++ d) ∧ s'.inSync = false := by
      intro n
      induction n with
      | zero => intro i s s' j h hs hr; cases hr; exact ⟨[], by simpa using h, hs⟩
      | succ n ih =>
        intro i s s' j h hs hr
        unfold kvsCleanGo at hr
        cases hi : s.ent[i]? with
        | none => rw [hi] at hr; cases hr
        | some e =>
          rw [hi] at hr
          simp only at hr
          split at hr
          · exact ih _ h hs hr
          · obtain ⟨s1, h3, h4, h5, _, _⟩ := kvsRemoveEntry_spec h hs hi
            rw [h3, Option.bind_some] at hr
            obtain ⟨d, k1, k2⟩ := ih _ h4 h5 hr
            exact ⟨_, by rw [List.append_assoc] at k1; exact k1, k2⟩
    obtain ⟨d, k1, k2⟩ := key _ _ h hs g1
    exact ⟨s', d, g1, k1, k2, g4, (by intro k v ho; cases ho), (by intro k hk; cases hk)⟩
  | sort =>
    obtain ⟨h1, h2, _⟩ := kvsSort_spec hq h
    exact ⟨_, [], rfl, by simpa using h1, hs, fun k => (h2 k).trans (hm k), (by intro k v ho; cases ho),
      (by intro k hk; cases hk)⟩

theorem runKOps_journal {q} (hq : IsQsort q) : ∀ (ops : List KOp) {s : KVS} {j} {m : Bytes → Option Bytes}, SInv s j →
    s.inSync = false → (∀ k, entVal s.ent k = m k) → CompatFrom m ops →
    ∃ s' d, runKOps q ops s = some s' ∧ SInv s' (j ++ d) ∧ s'.inSync = false ∧
      (∀ k, entVal s'.ent k = ops.foldl kvStep m k)
  | [], s, j, m, h, hs, hm, _ => ⟨s, [], rfl, by simpa using h, hs, hm⟩
  | o :: l, s, j, m, h, hs, hm, hc => by
    obtain ⟨s1, d, g1, g2, g3, g4, _⟩ := runKOp_journal hq h hs hm o hc.1
    obtain ⟨s', d', k1, k2, k3, k4⟩ := runKOps_journal hq l g2 g3 g4 hc.2
    exact ⟨s', d ++ d', by rw [runKOps, g1, Option.bind_some, k1], by rw [← List.append_assoc]; exact k2, k3, k4⟩

theorem compatFrom_append : ∀ {a b : List KOp} {m}, CompatFrom m (a ++ b) → CompatFrom m a ∧ CompatFrom (a.foldl kvStep m) b
  | [], _, _, h => ⟨trivial, h⟩
  | _ :: _, _, _, h => ⟨⟨h.1, (compatFrom_append h.2).1⟩, (compatFrom_append h.2).2⟩

/-- Journal after a history with a given operation. -/
theorem runKOps_at {q} (hq : IsQsort q) {pre post : List KOp} {o : KOp} {s : KVS} {j} {m : Bytes → Option Bytes}
    (h : SInv s j) (hs : s.inSync = false) (hm : ∀ k, entVal s.ent k = m k) (hc : CompatFrom m (pre ++ o :: post)) :
    ∃ s' s1 d1 d2, runKOps q (pre ++ o :: post) s = some s' ∧ SInv s' (j ++ d1 ++ d2) ∧ s'.inSync = false ∧
      runKOps q (pre ++ [o]) s = some s1 ∧ SInv s1 (j ++ d1) ∧ s1.inSync = false ∧
      (∀ k, entVal s1.ent k = (pre ++ [o]).foldl kvStep m k) ∧
      (∀ k v, o.sets? = some (k, v) → pre.foldl kvStep m k ≠ some v → (k, v) ∈ d1) ∧
      (∀ k, o = .remove k → pre.foldl kvStep m k ≠ none → (k, []) ∈ d1) ∧ runKOps q post s1 = some s' := by
  obtain ⟨hc1, hc2⟩ := compatFrom_append hc
  obtain ⟨s0, d0, e1, e2, e3, e4⟩ := runKOps_journal hq pre h hs hm hc1
  obtain ⟨s1, d, g1, g2, g3, g4, g5, g6⟩ := runKOp_journal hq e2 e3 e4 o hc2.1
  obtain ⟨s', d', k1, k2, k3, k4⟩ := runKOps_journal hq post g2 g3 g4 hc2.2
  refine ⟨s', s1, d0 ++ d, d', ?_, by simpa using k2, k3, ?_, by simpa using g2, g3, ?_, ?_, ?_, k1⟩
  · rw [runKOps_append, e1, Option.bind_some, runKOps, g1, Option.bind_some, k1]
  · rw [runKOps_append, e1, Option.bind_some, runKOps, g1]
    rfl
  · intro k
    rw [List.foldl_append, g4]
    rfl
  · intro k v ho hne
    exact List.mem_append.2 (.inr (g5 k v ho hne))
  · intro k ho hne
    exact List.mem_append.2 (.inr (g6 k ho hne))

theorem chSort_bad {q} {c : Changes} {l} (ho : c.off = jOff l) (hl : ∃ x ∈ l, x.2 = []) : chSort q c = none := by
  have h0 : l ≠ [] := by rintro rfl; obtain ⟨x, hx, _⟩ := hl; cases hx
  have h2 : c.off = 0 :: jOffs 0 l := by rw [ho, jOff, if_neg h0]
  unfold chSort
  rw [if_neg (by rw [h2]; simp)]
  split
  · rw [h2, chFill_removed hl]
    rfl
  · rfl

theorem send_spec {ts : List (List (Bytes × Bytes) × KVS)} (h : ∀ t ∈ ts, JInv t.2.changes t.1) :
    allSome ((ts.map (·.2)).map fun s => syncSend { s with inSync := true }) =
      some ((ts.map (·.1)).map fun j => (jOff j, jData j)) := by
  obtain ⟨r, h1, h2⟩ := allSome_map ts (fun t => syncSend { t.2 with inSync := true }) (·.1)
    (fun j y => y = (jOff j, jData j)) (by
      intro t ht
      have hj := h t ht
      refine ⟨_, ?_, rfl⟩
      unfold syncSend
      simp only [hj.off, hj.data]
      rw [if_pos]
      refine ⟨jOff_odd _, ?_⟩
      split
      · rename_i h0
        refine jData_pos ?_
        intro h
        rw [h] at h0
        exact absurd h0 (by simp [jOff])
      · rename_i h0
        rw [jOff_length] at h0
        split at h0
        · rename_i h; rw [h]; rfl
        · omega)
  rw [List.map_map]
  rw [forall₂_map_right h2] at h1
  exact h1

/-- The loop of process 0 aborts if a step with a journal aborts. -/
theorem syncLoop_none {q} (P : Changes → Prop) : ∀ (js : List (List (Bytes × Bytes))) (src dst recvd : Changes), P dst →
    (∀ j ∈ js, ∀ src dst r r' d, P dst → r.off = jOff j → r.data = jData j → r.ent = [] → chSort q r = some r' →
      chMerge src dst r' = some d → P d) →
    (∃ j ∈ js, j ≠ [] ∧ ∀ src dst r r', P dst → r.off = jOff j → r.data = jData j → r.ent = [] → chSort q r = some r' →
      chMerge src dst r' = none) →
    syncLoop q (js.map fun j => (jOff j, jData j)) src dst recvd = none
  | [], _, _, _, _, _, ⟨j, hj, _⟩ => by cases hj
  | j :: js, src, dst, recvd, hp, hstep, hbad => by
    obtain ⟨r1, hr1⟩ := ensureSize_some (c := { recvd with off := [], data := [], ent := [] }) rfl
      (jOff j).length (jData j).length
    simp only [List.map_cons, syncLoop, chSetSize_clear, hr1, Option.bind_eq_bind, Option.bind_some]
    have hrest : ∀ src dst recvd, P dst → (∃ j ∈ js, j ≠ [] ∧ ∀ src dst r r', P dst → r.off = jOff j → r.data = jData j →
        r.ent = [] → chSort q r = some r' → chMerge src dst r' = none) →
        syncLoop q (js.map fun j => (jOff j, jData j)) src dst recvd = none := fun src dst recvd hp hb =>
      syncLoop_none P js src dst recvd hp (fun j hj => hstep j (List.mem_cons_of_mem _ hj)) hb
    by_cases h0 : j = []
    · subst h0
      have hl : (jOff []).length = 0 := rfl
      have hl2 : (jData []).length = 0 := rfl
      rw [if_pos hl, if_pos hl2]
      refine hrest _ _ _ hp ?_
      obtain ⟨j', hj', hne, hb⟩ := hbad
      rcases List.mem_cons.1 hj' with rfl | hj'
      · exact absurd rfl hne
      · exact ⟨j', hj', hne, hb⟩
    · have hlen : (jOff j).length = 2 * j.length + 1 := by rw [jOff_length, if_neg h0]
      rw [if_neg (by omega), if_pos (jData_pos h0)]
      cases hset : chSetSize r1 (jOff j) (jData j) with
      | none => rfl
      | some r2 =>
        have hr2 : r2.off = jOff j ∧ r2.data = jData j ∧ r2.ent = [] := by
          unfold chSetSize at hset
          split at hset
          · cases hset; exact ⟨rfl, rfl, rfl⟩
          · cases hset
        rw [Option.bind_some]
        cases hs : chSort q r2 with
        | none => rfl
        | some r3 =>
          rw [Option.bind_some]
          cases hm : chMerge src dst r3 with
          | none => rfl
          | some d =>
            rw [Option.bind_some]
            obtain ⟨j', hj', hne, hb⟩ := hbad
            rcases List.mem_cons.1 hj' with rfl | hj'
            · rw [hb src dst r2 r3 hp hr2.1 hr2.2.1 hr2.2.2 hs] at hm
              cases hm
            · exact hrest _ _ _ (hstep j (by simp) src dst r2 r3 d hp hr2.1 hr2.2.1 hr2.2.2 hs hm) ⟨j', hj', hne, hb⟩

theorem kvsSync_bad {q} {ts : List (List (Bytes × Bytes) × KVS)} (h : ∀ t ∈ ts, JInv t.2.changes t.1)
    (hb : ∃ t ∈ ts, ∃ x ∈ t.1, x.2 = []) : kvsSync q (ts.map (·.2)) = none := by
  match ts, h, hb with
  | m :: ts, h, ⟨t, ht, hx⟩ =>
    rw [List.map_cons, kvsSync]
    simp only [send_spec (fun t ht => h t (List.mem_cons_of_mem _ ht)), Option.bind_eq_bind, Option.bind_some]
    have : syncMaster q { m.2 with inSync := true } ((ts.map (·.1)).map fun j => (jOff j, jData j)) = none := by
      unfold syncMaster
      rcases List.mem_cons.1 ht with rfl | ht
      · simp only [chSort_bad (h t (by simp)).off hx]
        rfl
      · cases hs : chSort q m.2.changes with
        | none => rfl
        | some own =>
          simp only [Option.bind_eq_bind, Option.bind_some]
          rw [syncLoop_none (fun _ => True) (ts.map (·.1)) chInit own chInit trivial (fun _ _ _ _ _ _ _ _ _ _ _ _ _ => trivial)
            ⟨t.1, List.mem_map_of_mem ht, (by rintro h0; rw [h0] at hx; obtain ⟨x, hx, _⟩ := hx; cases hx), ?_⟩]
          · rfl
          · intro src dst r r' _ ho _ _ hs'
            rw [chSort_bad ho hx] at hs'
            cases hs'
    rw [this]
    rfl

/-- Stores after the given operations. -/
theorem runKOps_world {q} (hq : IsQsort q) {f : Bytes → Option Bytes} : ∀ {opss : List (List KOp)} {ss : List KVS},
    opss.length = ss.length → (∀ s ∈ ss, Clean f s) → (∀ ops ∈ opss, CompatFrom f ops) →
    ∃ ts : List (List (Bytes × Bytes) × KVS), allSome (List.zipWith (runKOps q) opss ss) = some (ts.map (·.2)) ∧
      (∀ t ∈ ts, SInv t.2 t.1) ∧
      List.Forall₂ (fun ops t => ∃ s, Clean f s ∧ runKOps q ops s = some t.2 ∧ SInv t.2 t.1) opss ts
  | [], ss, _, _, _ => ⟨[], rfl, by simp, .nil⟩
  | ops :: opss, s :: ss, hl, hc, hco => by
    obtain ⟨ts, g1, g2, g3⟩ := runKOps_world hq (opss := opss) (ss := ss) (by simpa using hl)
      (fun s hs => hc s (List.mem_cons_of_mem _ hs)) (fun o ho => hco o (List.mem_cons_of_mem _ ho))
    have cs := hc s (by simp)
    obtain ⟨s', d, k1, k2, k3, k4⟩ := runKOps_journal hq ops cs.inv cs.sync cs.val (hco ops (by simp))
    refine ⟨(d, s') :: ts, ?_, ?_, .cons ⟨s, cs, k1, by simpa using k2⟩ g3⟩
    · rw [List.zipWith_cons_cons, k1, allSome, g1]
      rfl
    · intro t ht
      rcases List.mem_cons.1 ht with rfl | ht
      · simpa using k2
      · exact g2 t ht

theorem jData_inj_aux : ∀ {l l' : List (Bytes × Bytes)} {b : Nat}, jOffs b l = jOffs b l' → jData l = jData l' → l = l'
  | [], [], _, _, _ => rfl
  | [], (_, _) :: _, _, h, _ => by simp [jOffs] at h
  | (_, _) :: _, [], _, h, _ => by simp [jOffs] at h
  | (k, v) :: l, (k', v') :: l', b, h, hd => by
    simp only [jOffs, List.cons.injEq] at h
    obtain ⟨h1, h2, h3⟩ := h
    have hk : k.length = k'.length := by omega
    have hv : v.length = v'.length := by omega
    rw [jData_cons, jData_cons, List.append_assoc, List.append_assoc, List.append_assoc, List.append_assoc] at hd
    obtain ⟨e1, e2⟩ := List.append_inj hd hk
    obtain ⟨_, e3⟩ := List.append_inj e2 rfl
    obtain ⟨e4, e5⟩ := List.append_inj e3 hv
    subst e1
    subst e4
    rw [jData_inj_aux h3 e5]

theorem sinv_unique {s : KVS} {j j'} (h : SInv s j) (h' : SInv s j') : j = j' := by
  have h1 := h.jrn.off.symm.trans h'.jrn.off
  have h2 := h.jrn.data.symm.trans h'.jrn.data
  unfold jOff at h1
  split at h1
  · split at h1
    · rename_i a b; rw [a, b]
    · cases h1
  · split at h1
    · cases h1
    · exact jData_inj_aux (by simpa using h1) h2

theorem forall₂_mem_left {α β} {P : α → β → Prop} {l : List α} {r : List β} (h : List.Forall₂ P l r) :
    ∀ a ∈ l, ∃ b ∈ r, P a b := by
  induction h with
  | nil => simp
  | cons h _ ih =>
    intro a ha
    rcases List.mem_cons.1 ha with rfl | ha
    · exact ⟨_, by simp, h⟩
    · obtain ⟨b, hb, hp⟩ := ih a ha
      exact ⟨b, List.mem_cons_of_mem _ hb, hp⟩

/-- A synchronization aborts if any process removed an existing entry.  `f` is
the common map after the synchronization before. -/
theorem C26_remove_aborts {q} (hq : IsQsort q) {f : Bytes → Option Bytes} {opss : List (List KOp)} {ss : List KVS}
    (hl : opss.length = ss.length) (hc : ∀ s ∈ ss, Clean f s) (hco : ∀ ops ∈ opss, CompatFrom f ops)
    {pre post : List KOp} {k : Bytes} (hr : pre ++ .remove k :: post ∈ opss) (hk : pre.foldl kvStep f k ≠ none) :
    ∃ ss', allSome (List.zipWith (runKOps q) opss ss) = some ss' ∧ kvsSync q ss' = none := by
  obtain ⟨ts, g1, g2, g3⟩ := runKOps_world hq hl hc hco
  refine ⟨_, g1, kvsSync_bad (fun t ht => (g2 t ht).jrn) ?_⟩
  obtain ⟨t, ht, s, cs, hrun, hinv⟩ := forall₂_mem_left g3 _ hr
  obtain ⟨s', s1, d1, d2, e1, e2, _, _, _, _, _, _, e9, _⟩ := runKOps_at hq cs.inv cs.sync cs.val (hco _ hr)
  rw [hrun] at e1
  cases e1
  have := sinv_unique hinv e2
  exact ⟨t, ht, (k, []), by rw [this]; simp [e9 k rfl hk], rfl⟩

theorem sort_ents {q} (hq : IsQsort q) {c c' : Changes} {l} (ho : c.off = jOff l) (hd : c.data = jData l) (he : c.ent = [])
    (hs : chSort q c = some c') (hv : ∀ x ∈ l, 0 ∉ x.1 ∧ x.2 ≠ []) :
    ∃ a : List (Bytes × Bytes), c'.ent = a.map toEnt ∧ a.Perm l := by
  have hse : ∀ {a}, a.Perm (l.map toEnt) → ∃ b : List (Bytes × Bytes), a = b.map toEnt ∧ b.Perm l := by
    intro a hp
    let back : KEnt → Bytes × Bytes := fun e => (e.key, e.value.getD [])
    refine ⟨a.map back, ?_, ?_⟩
    · rw [List.map_map]
      conv_lhs => rw [← List.map_id a]
      apply List.map_congr_left
      intro e he
      have := hp.mem_iff.1 he
      rw [List.mem_map] at this
      obtain ⟨x, _, rfl⟩ := this
      rfl
    · have := hp.map back
      rw [List.map_map] at this
      have hid : back ∘ toEnt = id := by funext x; rfl
      rwa [hid, List.map_id] at this
  unfold chSort at hs
  split at hs
  · cases hs
    rename_i h0
    rw [ho, jOff_length] at h0
    split at h0
    · rename_i hl; exact ⟨[], by rw [he]; rfl, by rw [hl]⟩
    · omega
  · rename_i h0
    have hne : l ≠ [] := by rintro rfl; rw [ho] at h0; exact h0 rfl
    split at hs
    · rw [Option.bind_eq_some_iff] at hs
      obtain ⟨es, h1, h2⟩ := hs
      split at h2
      · cases h2
        have hes : es = l.map toEnt := by
          have hgen : ∀ {l pre : List (Bytes × Bytes)} {n es}, c.data = jData (pre ++ l) →
              (∀ x ∈ l, 0 ∉ x.1 ∧ x.2 ≠ []) →
              chFill c.data c.entSize ((jData pre).length :: jOffs (jData pre).length l) n = some es →
              es = l.map toEnt := by
            intro l
            induction l with
            | nil => intro pre n es _ _ h; simp [jOffs, chFill] at h; simp [h]
            | cons x l ih =>
              intro pre n es hd hv h
              obtain ⟨k, v⟩ := x
              obtain ⟨hk, _⟩ := hv (k, v) List.mem_cons_self
              have hd' : c.data = jData pre ++ (k ++ [0] ++ v ++ jData l) := by
                rw [hd, jData_append, jData_cons]
              have hp := jData_parts (jData pre) k v (jData l) hk
              simp only [← hd'] at hp
              obtain ⟨p1, p2, _, _⟩ := hp
              simp only [jOffs] at h
              rw [chFill] at h
              split at h
              · rw [Option.map_eq_some_iff] at h
                obtain ⟨es', h3, rfl⟩ := h
                have hlen : (jData (pre ++ [(k, v)])).length = (jData pre).length + (k.length + 1) + v.length := by
                  rw [jData_len_snoc]; simp only; omega
                have := ih (pre := pre ++ [(k, v)]) (n := n + 1) (es := es') (by rw [hd]; simp)
                  (fun x hx => hv x (List.mem_cons_of_mem _ hx)) (by rw [hlen]; exact h3)
                rw [this, p1, p2]
                rfl
              · cases h
          have h2 : c.off = 0 :: jOffs 0 l := by rw [ho, jOff, if_neg hne]
          rw [h2] at h1
          exact hgen (pre := []) hd hv h1
        rw [← hes] at hse
        exact hse (hq.perm es)
      · cases h2
    · cases hs

/-- A synchronization aborts if a process other than 0 changed the same key
twice since the last one. -/
theorem C26_double_change_aborts {q} (hq : IsQsort q) {f : Bytes → Option Bytes} {ops0 : List KOp}
    {opss : List (List KOp)} {ss : List KVS}
    (hl : (ops0 :: opss).length = ss.length) (hc : ∀ s ∈ ss, Clean f s) (hco : ∀ ops ∈ ops0 :: opss, CompatFrom f ops)
    (hv : ∀ ops ∈ ops0 :: opss, ∀ o ∈ ops, ∀ k v, o.sets? = some (k, v) → 0 ∉ k)
    {pre mid post : List KOp} {o o' : KOp} {k v w : Bytes} (hr : pre ++ o :: (mid ++ o' :: post) ∈ opss)
    (ho : o.sets? = some (k, v)) (ho' : o'.sets? = some (k, w)) (hk : pre.foldl kvStep f k ≠ some v)
    (hk' : (pre ++ o :: mid).foldl kvStep f k ≠ some w) :
    ∃ ss', allSome (List.zipWith (runKOps q) (ops0 :: opss) ss) = some ss' ∧ kvsSync q ss' = none := by
  obtain ⟨ts, g1, g2, g3⟩ := runKOps_world hq hl hc hco
  refine ⟨_, g1, ?_⟩
  by_cases hb : ∃ t ∈ ts, ∃ x ∈ t.1, x.2 = []
  · exact kvsSync_bad (fun t ht => (g2 t ht).jrn) hb
  have hne : ∀ t ∈ ts, ∀ x ∈ t.1, x.2 ≠ [] := fun t ht x hx h => hb ⟨t, ht, x, hx, h⟩
  -- keys in journals are C strings
  have hkeys : ∀ t ∈ ts, ∀ x ∈ t.1, 0 ∉ x.1 := by
    have gen : ∀ (ops : List KOp) {s s' : KVS} {j j'} {m}, SInv s j → s.inSync = false → (∀ k, entVal s.ent k = m k) →
        CompatFrom m ops → (∀ o ∈ ops, ∀ k v, o.sets? = some (k, v) → 0 ∉ k) → (∀ x ∈ j, 0 ∉ x.1 ) →
        runKOps q ops s = some s' → SInv s' j' → (∀ x ∈ j', x.2 ≠ []) → ∀ x ∈ j', 0 ∉ x.1 := by
      intro ops
      induction ops with
      | nil =>
        intro s s' j j' m h _ _ _ _ hj hr h' _
        cases hr
        rw [← sinv_unique h h']
        exact hj
      | cons o l ih =>
        intro s s' j j' m h hs hm hc hv hj hr h' hne'
        obtain ⟨s1, d, e1, e2, e3, e4, _, _⟩ := runKOp_journal hq h hs hm o hc.1
        rw [runKOps, e1, Option.bind_some] at hr
        obtain ⟨s2, d2, f1, f2, _, _⟩ := runKOps_journal hq l e2 e3 e4 hc.2
        rw [hr] at f1
        cases f1
        have hj' := sinv_unique h' f2
        refine ih e2 e3 e4 hc.2 (fun o ho => hv o (List.mem_cons_of_mem _ ho)) ?_ hr h' hne'
        intro x hx
        rcases List.mem_append.1 hx with hx1 | hx1
        · exact hj x hx1
        -- entries added by this operation
        have hx2 : x.2 ≠ [] := hne' x (by rw [hj']; exact List.mem_append.2 (.inl hx))
        have hset : ∀ k v, o.sets? = some (k, v) → kvsSet s k v = some s1 → 0 ∉ x.1 := by
          intro k v hov hset
          by_cases h1 : ∃ old, entVal s.ent k = some old ∧ v <+: old
          · obtain ⟨old, ho, hp⟩ := h1
            rw [kvsSet_prefix h.ent ho hp] at hset
            cases hset
            have := sinv_unique h e2
            rw [← this] at hx
            exact hj x hx
          · by_cases h2 : ∃ old, entVal s.ent k = some old ∧ old <+: v
            · obtain ⟨old, ho, hp⟩ := h2
              rw [kvsSet_ext h.ent ho hp (by rintro rfl; exact h1 ⟨old, ho, hp⟩)] at hset
              cases hset
            · obtain ⟨s3, k1, k2, _, _, _⟩ := kvsSet_change (k := k) (v := v) h hs
                (fun old ho => ⟨fun hp => h1 ⟨old, ho, hp⟩, fun hp => h2 ⟨old, ho, hp⟩⟩)
              rw [hset] at k1
              cases k1
              have := sinv_unique e2 k2
              have hd : d = [(k, v)] := List.append_cancel_left this
              rw [hd, List.mem_singleton] at hx1
              subst hx1
              exact hv o (by simp) k v hov
        cases o with
        | set k v => exact hset k v rfl e1
        | sets k v => exact hset k (v ++ [0]) rfl e1
        | remove k =>
          simp only [runKOp, kvsRemove] at e1
          rcases kvsEntry_spec h.ent k with ⟨i, e, h1, h2, rfl⟩ | ⟨h1, h2⟩
          · obtain ⟨s3, h3, h4, _, _, _⟩ := kvsRemoveEntry_spec h hs h2
            rw [h1, Option.bind_some] at e1
            simp only [h3, Option.map_some, Option.some.injEq] at e1
            subst e1
            have hd : d = [(e.key, [])] := List.append_cancel_left (sinv_unique e2 h4)
            rw [hd, List.mem_singleton] at hx1
            subst hx1
            exact absurd rfl hx2
          · rw [h1] at e1
            simp only [Option.bind_some, Option.map_some, Option.some.injEq] at e1
            subst e1
            rw [← sinv_unique h e2] at hx
            exact hj x hx
        | clean =>
          have key : ∀ (n i : Nat) {s s' : KVS} {j j'}, SInv s j → s.inSync = false → kvsCleanGo n i s = some s' →
              SInv s' j' → ∃ d, j' = j ++ d ∧ ∀ x ∈ d, x.2 = [] := by
            intro n
            induction n with
            | zero => intro i s s' j j' h _ hr h'; cases hr; exact ⟨[], by simpa using sinv_unique h' h, by simp⟩
            | succ n ih =>
              intro i s s' j j' h hs hr h'
              unfold kvsCleanGo at hr
              cases hi : s.ent[i]? with
              | none => rw [hi] at hr; cases hr
              | some e =>
                rw [hi] at hr
                simp only at hr
                split at hr
                · exact ih _ h hs hr h'
                · obtain ⟨s1, h3, h4, h5, _, _⟩ := kvsRemoveEntry_spec h hs hi
                  rw [h3, Option.bind_some] at hr
                  obtain ⟨d, k1, k2⟩ := ih _ h4 h5 hr h'
                  refine ⟨(e.key, []) :: d, by rw [k1]; simp, ?_⟩
                  intro x hx
                  rcases List.mem_cons.1 hx with rfl | hx
                  · rfl
                  · exact k2 x hx
          obtain ⟨d', k1, k2⟩ := key _ _ h hs e1 e2
          have hd : d = d' := List.append_cancel_left k1
          rw [hd] at hx1
          exact absurd (k2 x hx1) hx2
        | sort =>
          cases e1
          have := sinv_unique e2 (kvsSort_spec hq h).1
          rw [this] at hx
          exact hj x hx
    intro t ht
    have : ∀ (l : List (List KOp)) (ts : List (List (Bytes × Bytes) × KVS)), List.Forall₂ (fun ops t => ∃ s, Clean f s ∧
        runKOps q ops s = some t.2 ∧ SInv t.2 t.1) l ts → ∀ t ∈ ts, ∃ ops ∈ l, ∃ s, Clean f s ∧ runKOps q ops s = some t.2 ∧
        SInv t.2 t.1 := by
      intro l ts h
      induction h with
      | nil => simp
      | cons h _ ih =>
        intro a ha
        rcases List.mem_cons.1 ha with rfl | ha
        · exact ⟨_, by simp, h⟩
        · obtain ⟨b, hb, hp⟩ := ih a ha
          exact ⟨b, List.mem_cons_of_mem _ hb, hp⟩
    obtain ⟨ops, hops, s, cs, hrun, hinv⟩ := this _ _ g3 t ht
    exact gen ops cs.inv cs.sync cs.val (hco ops hops) (hv ops hops) (by simp) hrun hinv (hne t ht)
  have hvalid : ∀ t ∈ ts, ∀ x ∈ t.1, 0 ∉ x.1 ∧ x.2 ≠ [] := fun t ht x hx => ⟨hkeys t ht x hx, hne t ht x hx⟩
  cases g3 with
  | cons hm g3 =>
    rename_i m ts
    obtain ⟨t, ht, s, cs, hrun, hinv⟩ := forall₂_mem_left g3 _ hr
    have hdup : ¬ (t.1.map (·.1)).Nodup := by
      have hco' := hco _ (List.mem_cons_of_mem _ hr)
      obtain ⟨s', s1, d1, d2, e1, e2, _, _, e5, e6, e7, e8, _, e10⟩ := runKOps_at hq cs.inv cs.sync cs.val hco'
      rw [hrun] at e1
      cases e1
      have hc2 : CompatFrom ((pre ++ [o]).foldl kvStep f) (mid ++ o' :: post) := by
        have := (compatFrom_append hco').2.2
        rw [List.foldl_append]
        exact this
      obtain ⟨s', s3, c1, c2, k1, k2, _, _, _, _, _, k8, _, _⟩ := runKOps_at hq e5 e6 e7 hc2
      rw [e10] at k1
      cases k1
      have hj := sinv_unique hinv k2
      have m1 := e8 k v ho hk
      have m2 := k8 k w ho' (by rw [← List.foldl_append]; simpa using hk')
      intro hn
      rw [hj, List.nil_append, List.map_append, List.map_append, List.nodup_append] at hn
      have := (List.nodup_append.1 hn.1).2.2 k (List.mem_map.2 ⟨_, m1, rfl⟩) k (List.mem_map.2 ⟨_, m2, rfl⟩)
      exact this rfl
    rw [List.map_cons, kvsSync]
    simp only [send_spec (fun t ht => (g2 t (List.mem_cons_of_mem _ ht)).jrn), Option.bind_eq_bind, Option.bind_some]
    have : syncMaster q { m.2 with inSync := true } ((ts.map (·.1)).map fun j => (jOff j, jData j)) = none := by
      unfold syncMaster
      simp only
      cases hs : chSort q m.2.changes with
      | none => rfl
      | some own =>
        simp only [Option.bind_eq_bind, Option.bind_some]
        have hmj := (g2 m (by simp)).jrn
        obtain ⟨a, ha, _⟩ := sort_ents hq hmj.off hmj.data hmj.ent hs (hvalid m (by simp))
        rw [syncLoop_none (fun c => ∃ a : List (Bytes × Bytes), c.ent = a.map toEnt) (ts.map (·.1)) chInit own chInit ⟨a, ha⟩
          ?_ ⟨t.1, List.mem_map_of_mem ht, ?_, ?_⟩]
        · rfl
        · intro j hj src dst r r' d ⟨a, ha⟩ ho hd he hs hm
          rw [List.mem_map] at hj
          obtain ⟨t', ht', rfl⟩ := hj
          obtain ⟨b, hb, _⟩ := sort_ents hq ho hd he hs (hvalid t' (List.mem_cons_of_mem _ ht'))
          obtain ⟨d0, x1, _, _, _, x5⟩ := chMerge_start src dst r'
          rw [x5, ha, hb] at hm
          obtain ⟨m', y1, _⟩ := chMergeGo_some a b [] d0 d x1 .nil hm
          exact ⟨_, y1.ent⟩
        · rintro h0
          rw [h0] at hdup
          simp at hdup
        · intro src dst r r' ⟨a, ha⟩ ho hd he hs
          obtain ⟨b, hb, hp⟩ := sort_ents hq ho hd he hs (hvalid t (List.mem_cons_of_mem _ ht))
          exact C27_duplicate_aborts src ha hb (.inr (fun h => hdup ((hp.map (·.1)).nodup_iff.1 h)))
    rw [this]
    rfl

/-- A synchronization without any change aborts in process 0. -/
theorem C26_no_change_aborts {q} {f : Bytes → Option Bytes} {ss : List KVS} (hn : ss ≠ []) (hc : ∀ s ∈ ss, Clean f s) :
    kvsSync q ss = none := by
  match ss, hn, hc with
  | m :: ss, _, hc =>
    rw [kvsSync]
    have hs := send_spec (ts := ss.map (fun s => ([], s))) (by
      intro t ht
      rw [List.mem_map] at ht
      obtain ⟨s, hs, rfl⟩ := ht
      exact (hc s (List.mem_cons_of_mem _ hs)).inv.jrn)
    have e1 : (ss.map (fun s => (([] : List (Bytes × Bytes)), s))).map (·.2) = ss := by
      rw [List.map_map]
      exact List.map_id ss
    rw [e1] at hs
    simp only [hs, Option.bind_eq_bind, Option.bind_some]
    have hj := (hc m (by simp)).inv.jrn
    have hloop : ∀ (l : List KVS) (src dst recvd : Changes),
        syncLoop q (((l.map (fun s => (([] : List (Bytes × Bytes)), s))).map (·.1)).map fun j => (jOff j, jData j)) src dst recvd
          = some dst := by
      intro l
      induction l with
      | nil => intro src dst recvd; rfl
      | cons s l ih =>
        intro src dst recvd
        obtain ⟨r1, hr1⟩ := ensureSize_some (c := { recvd with off := [], data := [], ent := [] }) rfl
          (jOff []).length (jData []).length
        simp only [List.map_cons, syncLoop, chSetSize_clear, hr1, Option.bind_eq_bind, Option.bind_some]
        rw [if_pos (show (jOff []).length = 0 from rfl), if_pos (show (jData []).length = 0 from rfl)]
        exact ih _ _ _
    have : chSort q m.changes = some m.changes := by
      unfold chSort
      rw [if_pos (by rw [hj.off]; rfl)]
    unfold syncMaster
    simp only [this, Option.bind_eq_bind, Option.bind_some, hloop]
    rw [hj.off, hj.data]
    rfl

/-- One change of 3 bytes only (key of one character, value of one byte) makes
process 0 abort. -/
theorem C26_small_aborts :
    worldRound insSort [[([97], [1])], []] [kvsNew, kvsNew] = none ∧
    (worldRound insSort [[([97, 98], [1])], []] [kvsNew, kvsNew]).isSome = true := by
  decide +kernel

/-- The same key changed twice by process 0, without changes by others. -/
theorem C26_double_change_master :
    (runKOps insSort [.set [97, 98] [1], .set [97, 98] [2]] kvsNew).bind (fun s => kvsSync insSort [s]) = some [none] := by
  decide +kernel

/-- A conflict not seen when merging is detected by the other process only. -/
theorem C26_conflict_one_aborts :
    ((allSome (List.zipWith setAll [[([97, 98], [0, 1])], [([97, 98], [0, 2])]] [kvsNew, kvsNew])).bind
      (kvsSync insSort)).map (fun l => l.map Option.isSome) = some [true, false] := by
  decide +kernel

/-! ## Examples -/

/-- Two rounds of three processes: the first with the same change by two
processes, the second overwriting values. -/
def syncDemo : List (List (List (Bytes × Bytes))) :=
  [[[([97, 98], [1, 2]), ([98], [7])], [([97, 98], [1, 2])], []],
   [[], [([98], [8]), ([97, 98], [1, 2])], [([99], [5]), ([98], [8]), ([97, 99], [1])]]]

theorem syncDemo_ok : RoundsOK (fun _ => none) syncDemo := by
  refine ⟨⟨?_, ?_, ?_, ?_⟩, ⟨?_, ?_, ?_, ?_⟩, trivial⟩
  · decide
  · intro h hh h' hh' k v w hv hw
    have hv := List.mem_flatten.2 ⟨h, hh, hv⟩
    have hw := List.mem_flatten.2 ⟨h', hh', hw⟩
    simp only [List.flatten_cons, List.flatten_nil, List.append_nil, List.cons_append, List.nil_append, List.mem_cons,
      Prod.mk.injEq, List.not_mem_nil, or_false] at hv hw
    rcases hv with ⟨rfl, rfl⟩ | ⟨rfl, rfl⟩ | ⟨rfl, rfl⟩ <;> simp_all
  · intro h hh k v hv old ho
    cases ho
  · exact ⟨_, List.mem_cons_self, [97, 98], [1, 2], by simp, by simp, by decide⟩
  · decide
  · intro h hh h' hh' k v w hv hw
    have hv := List.mem_flatten.2 ⟨h, hh, hv⟩
    have hw := List.mem_flatten.2 ⟨h', hh', hw⟩
    simp only [List.flatten_cons, List.flatten_nil, List.append_nil, List.cons_append, List.nil_append, List.mem_cons,
      Prod.mk.injEq, List.not_mem_nil, or_false] at hv hw
    rcases hv with ⟨rfl, rfl⟩ | ⟨rfl, rfl⟩ | ⟨rfl, rfl⟩ | ⟨rfl, rfl⟩ | ⟨rfl, rfl⟩ <;> simp_all
  · intro h hh k v hv old ho
    have hv := List.mem_flatten.2 ⟨h, hh, hv⟩
    simp only [List.flatten_cons, List.flatten_nil, List.append_nil, List.cons_append, List.nil_append, List.mem_cons,
      Prod.mk.injEq, List.not_mem_nil, or_false] at hv
    unfold Unrelated
    rcases hv with ⟨rfl, rfl⟩ | ⟨rfl, rfl⟩ | ⟨rfl, rfl⟩ | ⟨rfl, rfl⟩ | ⟨rfl, rfl⟩ <;>
      simp [roundSpec] at ho <;> subst ho <;> decide
  · exact ⟨_, List.mem_cons_of_mem _ (List.mem_cons_of_mem _ List.mem_cons_self), [97, 99], [1], by simp,
      by simp [roundSpec], by decide⟩

example : ∃ ss, worldRounds insSort syncDemo (List.replicate 3 kvsNew) = some ss ∧ ss.length = 3 ∧
    ∀ s ∈ ss, ∀ k, kvsGet s k = some (roundsSpec (fun _ => none) syncDemo k) :=
  C26_sync_partial insSort_isQsort 3 syncDemo (by decide) syncDemo_ok

example : roundsSpec (fun _ => none) syncDemo [98] = some [8] ∧ roundsSpec (fun _ => none) syncDemo [97, 98] = some [1, 2] ∧
    roundsSpec (fun _ => none) syncDemo [99] = some [5] ∧ roundsSpec (fun _ => none) syncDemo [100] = none := by
  decide

example : ∃ ss', allSome (List.zipWith (runKOps insSort) [[], [.set [97, 98] [1], .remove [97, 98]]] [kvsNew, kvsNew]) =
    some ss' ∧ kvsSync insSort ss' = none :=
  C26_remove_aborts insSort_isQsort (f := fun _ => none) (pre := [.set [97, 98] [1]]) (post := []) (k := [97, 98]) rfl
    (by simp [kvsNew_clean]) (by simp [CompatFrom, KOp.sets?]) (by simp) (by simp [kvStep])

example : ∃ ss', allSome (List.zipWith (runKOps insSort) [[], [.set [97] [1], .sort, .set [97] [2]]] [kvsNew, kvsNew]) =
    some ss' ∧ kvsSync insSort ss' = none :=
  C26_double_change_aborts insSort_isQsort (f := fun _ => none) (pre := []) (mid := [.sort]) (post := [])
    (o := .set [97] [1]) (o' := .set [97] [2]) (k := [97]) (v := [1]) (w := [2]) rfl
    (by simp [kvsNew_clean]) (by simp [CompatFrom, KOp.sets?, kvStep, Unrelated]) (by simp [KOp.sets?]) (by simp)
    rfl rfl (by simp) (by simp [kvStep])

end Laik
