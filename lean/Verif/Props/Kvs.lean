import Verif.Model.KvsOps
import Verif.Spec.Kvs
/-!
# C25: the key-value store is a map
-/

namespace Laik

/-- Operations of a program on its store. -/
def runKOp (q : List KEnt → List KEnt) (s : KVS) : KOp → Option KVS
  | .set k v => kvsSet s k v
  | .sets k v => kvsSets s k v
  | .remove k => (kvsRemove s k).map (·.2)
  | .clean => kvsClean s
  | .sort => some (kvsSort q s)

def runKOps (q : List KEnt → List KEnt) : List KOp → KVS → Option KVS
  | [], s => some s
  | o :: l, s => (runKOp q s o).bind (runKOps q l)

/-- Value given with an operation. -/
def KOp.sets? : KOp → Option (Bytes × Bytes)
  | .set k v => some (k, v)
  | .sets k v => some (k, v ++ [0])
  | _ => none

/-- Every value set for a key is equal to the one stored before, or none of both
is a prefix of the other. -/
def Compat (ops : List KOp) : Prop :=
  ∀ pre o post k v, ops = pre ++ o :: post → o.sets? = some (k, v) → ∀ old, kvSpec pre k = some old →
    old = v ∨ Unrelated old v

theorem runKOp_spec {q} (hq : IsQsort q) {s : KVS} {j} (h : SInv s j) (hs : s.inSync = false)
    {m : Bytes → Option Bytes} (hm : ∀ k, entVal s.ent k = m k) (o : KOp)
    (hc : ∀ k v, o.sets? = some (k, v) → ∀ old, m k = some old → old = v ∨ Unrelated old v) :
    ∃ s' j', runKOp q s o = some s' ∧ SInv s' j' ∧ s'.inSync = false ∧ ∀ k, entVal s'.ent k = kvStep m o k := by
  have hset : ∀ k v, o.sets? = some (k, v) → ∃ s' j', kvsSet s k v = some s' ∧ SInv s' j' ∧ s'.inSync = false ∧
      ∀ k', entVal s'.ent k' = if k' = k then some v else m k' := by
    intro k v ho
    by_cases he : m k = some v
    · refine ⟨s, j, kvsSet_prefix h.ent ((hm k).trans he) (List.prefix_refl v), h, hs, ?_⟩
      intro k'
      split
      · rename_i hk; rw [hk, hm, he]
      · exact hm k'
    · obtain ⟨s', h1, h2, h3, h4, _⟩ := kvsSet_change (k := k) (v := v) h hs (by
        intro old hold
        rw [hm] at hold
        rcases hc k v ho old hold with rfl | hu
        · exact absurd hold he
        · exact ⟨hu.2, hu.1⟩)
      refine ⟨s', _, h1, h2, h3, ?_⟩
      intro k'
      rw [h4, hm]
  cases o with
  | set k v => exact hset k v rfl
  | sets k v => exact hset k (v ++ [0]) rfl
  | remove k =>
    obtain ⟨b, s', j', h1, h2, h3, h4⟩ := kvsRemove_spec h hs k
    refine ⟨s', j', by simp only [runKOp, h1, Option.map_some], h2, h3, ?_⟩
    intro k'
    rw [h4, hm]
    rfl
  | clean =>
    obtain ⟨s', j', h1, h2, h3, h4⟩ := kvsClean_spec h hs
    exact ⟨s', j', h1, h2, h3, h4⟩
  | sort =>
    obtain ⟨h1, h2, _⟩ := kvsSort_spec hq h
    exact ⟨_, j, rfl, h1, hs, fun k => (h2 k).trans (hm k)⟩

theorem runKOps_append {q} : ∀ (a b : List KOp) (s : KVS), runKOps q (a ++ b) s = (runKOps q a s).bind (runKOps q b)
  | [], _, _ => rfl
  | o :: a, b, s => by
    simp only [List.cons_append, runKOps]
    cases runKOp q s o with
    | none => rfl
    | some s' => exact runKOps_append a b s'

theorem runKOps_inv {q} (hq : IsQsort q) (ops : List KOp) (hc : Compat ops) :
    ∃ s j, runKOps q ops kvsNew = some s ∧ SInv s j ∧ s.inSync = false ∧ ∀ k, entVal s.ent k = kvSpec ops k := by
  have key : ∀ (rest pre : List KOp), pre ++ rest = ops →
      (∃ s j, runKOps q pre kvsNew = some s ∧ SInv s j ∧ s.inSync = false ∧ ∀ k, entVal s.ent k = kvSpec pre k) →
      ∃ s j, runKOps q ops kvsNew = some s ∧ SInv s j ∧ s.inSync = false ∧ ∀ k, entVal s.ent k = kvSpec ops k := by
    intro rest
    induction rest with
    | nil =>
      intro pre hp h
      rw [List.append_nil] at hp
      rw [← hp]
      exact h
    | cons o rest ih =>
      intro pre hp ⟨s, j, h1, h2, h3, h4⟩
      refine ih (pre ++ [o]) (by simpa using hp) ?_
      obtain ⟨s', j', g1, g2, g3, g4⟩ := runKOp_spec hq h2 h3 h4 o (fun k v ho => hc pre o rest k v hp.symm ho)
      refine ⟨s', j', ?_, g2, g3, ?_⟩
      · rw [runKOps_append, h1, Option.bind_some, runKOps, g1]
        rfl
      · intro k
        rw [g4]
        unfold kvSpec
        rw [List.foldl_append]
        rfl
  exact key ops [] rfl ⟨kvsNew, [], rfl, kvsNew_inv, rfl, fun k => rfl⟩

/-- C25 (partial): after any history of operations not aborting, every key has
the value most recently set, or none if never set or removed since.  Missing:
histories setting a value which is a proper prefix of the stored one, or the
other way around, for which it is false (`C25_prefix_ignored`,
`C25_extension_undefined`). -/
theorem C25_map_partial {q} (hq : IsQsort q) (ops : List KOp) (hc : Compat ops) :
    ∃ s, runKOps q ops kvsNew = some s ∧ ∀ k, kvsGet s k = some (kvSpec ops k) := by
  obtain ⟨s, j, h1, h2, _, h4⟩ := runKOps_inv hq ops hc
  refine ⟨s, h1, fun k => ?_⟩
  rw [kvsGet_spec h2.ent, h4]

theorem prefix_nul : ∀ {a b : Bytes}, 0 ∉ a → 0 ∉ b → (a ++ [0]) <+: (b ++ [0]) → a = b
  | [], [], _, _, _ => rfl
  | [], b :: bs, _, hb, h => by
    simp only [List.nil_append, List.cons_append, List.cons_prefix_cons] at h
    rw [← h.1] at hb
    simp at hb
  | a :: as, [], ha, _, h => by
    simp only [List.nil_append, List.cons_append, List.cons_prefix_cons] at h
    rw [h.1] at ha
    simp at ha
  | a :: as, b :: bs, ha, hb, h => by
    simp only [List.cons_append, List.cons_prefix_cons] at h
    rw [List.mem_cons, not_or] at ha hb
    rw [h.1, prefix_nul ha.2 hb.2 h.2]

theorem kvSpec_strings {ops : List KOp} (hs : ∀ o ∈ ops, ∀ k v, o.sets? = some (k, v) → ∃ t, v = t ++ [0] ∧ 0 ∉ t)
    {k old} (h : kvSpec ops k = some old) : ∃ t, old = t ++ [0] ∧ 0 ∉ t := by
  have key : ∀ (l : List KOp) (m : Bytes → Option Bytes),
      (∀ o ∈ l, ∀ k v, o.sets? = some (k, v) → ∃ t, v = t ++ [0] ∧ 0 ∉ t) →
      (∀ k old, m k = some old → ∃ t, old = t ++ [0] ∧ 0 ∉ t) →
      ∀ k old, l.foldl kvStep m k = some old → ∃ t, old = t ++ [0] ∧ 0 ∉ t := by
    intro l
    induction l with
    | nil => intro m _ hm; exact hm
    | cons o l ih =>
      intro m ho hm
      refine ih _ (fun x hx => ho x (List.mem_cons_of_mem _ hx)) ?_
      intro k old hk
      have h1 := ho o List.mem_cons_self
      cases o with
      | set a b =>
        simp only [kvStep] at hk
        split at hk
        · cases hk; exact h1 a _ rfl
        · exact hm k old hk
      | sets a b =>
        simp only [kvStep] at hk
        split at hk
        · cases hk; exact h1 a _ rfl
        · exact hm k old hk
      | remove a =>
        simp only [kvStep] at hk
        split at hk
        · cases hk
        · exact hm k old hk
      | clean => simp [kvStep] at hk
      | sort => exact hm k old hk
  exact key ops _ hs (by simp) k old h

/-- C25 for stores with string values (`laik_kvs_sets` only): no restriction on
the history. -/
theorem C25_strings {q} (hq : IsQsort q) (ops : List KOp) (hs : ∀ k v, KOp.set k v ∉ ops)
    (hn : ∀ k v, KOp.sets k v ∈ ops → 0 ∉ v) :
    ∃ s, runKOps q ops kvsNew = some s ∧ ∀ k, kvsGet s k = some (kvSpec ops k) := by
  refine C25_map_partial hq ops ?_
  have hstr : ∀ o ∈ ops, ∀ k v, o.sets? = some (k, v) → ∃ t, v = t ++ [0] ∧ 0 ∉ t := by
    intro o ho k v h
    cases o with
    | set a b => exact absurd ho (hs a b)
    | sets a b =>
      simp only [KOp.sets?, Option.some.injEq, Prod.mk.injEq] at h
      exact ⟨b, h.2.symm, hn a b ho⟩
    | remove a => cases h
    | clean => cases h
    | sort => cases h
  intro pre o post k v hp ho old hold
  obtain ⟨t, rfl, ht⟩ := hstr o (by rw [hp]; simp) k v ho
  obtain ⟨t', rfl, ht'⟩ := kvSpec_strings (ops := pre) (fun o ho => hstr o (by rw [hp]; simp [ho])) hold
  by_cases h : t' = t
  · exact .inl (by rw [h])
  · exact .inr ⟨fun hh => h (prefix_nul ht' ht hh), fun hh => h (prefix_nul ht ht' hh).symm⟩

/-- A value which is a proper prefix of the stored one is ignored, in any
reachable state. -/
theorem C25_prefix_ignored {q} (hq : IsQsort q) (ops : List KOp) (hc : Compat ops) (k v old : Bytes)
    (h : kvSpec ops k = some old) (hp : v <+: old) (hne : v ≠ old) :
    ∃ s, runKOps q (ops ++ [.set k v]) kvsNew = some s ∧ kvsGet s k = some (some old) ∧
      kvsGet s k ≠ some (kvSpec (ops ++ [.set k v]) k) := by
  obtain ⟨s, j, h1, h2, _, h4⟩ := runKOps_inv hq ops hc
  refine ⟨s, ?_, ?_, ?_⟩
  · rw [runKOps_append, h1, Option.bind_some, runKOps, runKOp, kvsSet_prefix h2.ent ((h4 k).trans h) hp]
    rfl
  · rw [kvsGet_spec h2.ent, h4, h]
  · rw [kvsGet_spec h2.ent, h4, h]
    unfold kvSpec
    rw [List.foldl_append]
    simpa [kvStep] using fun hh => hne hh.symm

/-- Setting a value which extends the stored one reads beyond the end of the
stored value, in any reachable state. -/
theorem C25_extension_undefined {q} (hq : IsQsort q) (ops : List KOp) (hc : Compat ops) (k v old : Bytes)
    (h : kvSpec ops k = some old) (hp : old <+: v) (hne : old ≠ v) :
    runKOps q (ops ++ [.set k v]) kvsNew = none := by
  obtain ⟨s, j, h1, h2, _, h4⟩ := runKOps_inv hq ops hc
  rw [runKOps_append, h1, Option.bind_some, runKOps, runKOp, kvsSet_ext h2.ent ((h4 k).trans h) hp hne]
  rfl

/-- A sort for examples. -/
def insKey (e : KEnt) : List KEnt → List KEnt
  | [] => [e]
  | x :: l => if strcmp e.key x.key ≤ 0 then e :: x :: l else x :: insKey e l

def insSort : List KEnt → List KEnt
  | [] => []
  | e :: l => insKey e (insSort l)

theorem insKey_perm (e : KEnt) : ∀ l, (insKey e l).Perm (e :: l)
  | [] => .refl _
  | x :: l => by
    unfold insKey
    split
    · exact .refl _
    · exact ((insKey_perm e l).cons x).trans (.swap e x l)

theorem strcmp_le_trans {a b c : Bytes} (h1 : strcmp a b ≤ 0) (h2 : strcmp b c ≤ 0) : strcmp a c ≤ 0 := by
  rcases strcmp_tri a b with h | h | h
  · rcases strcmp_tri b c with h' | h' | h'
    · have := strcmp_trans h h'; omega
    · subst h'; exact h1
    · have := (strcmp_pos b c).2 h'; omega
  · subst h; exact h2
  · have := (strcmp_pos a b).2 h; omega

theorem insKey_sorted (e : KEnt) : ∀ l, l.Pairwise (fun a b : KEnt => strcmp a.key b.key ≤ 0) →
    (insKey e l).Pairwise (fun a b => strcmp a.key b.key ≤ 0)
  | [], _ => by simp [insKey]
  | x :: l, h => by
    unfold insKey
    rw [List.pairwise_cons] at h
    split
    · rename_i hex
      rw [List.pairwise_cons]
      refine ⟨?_, List.pairwise_cons.2 h⟩
      intro y hy
      rcases List.mem_cons.1 hy with rfl | hy
      · exact hex
      · exact strcmp_le_trans hex (h.1 y hy)
    · rename_i hex
      rw [List.pairwise_cons]
      refine ⟨?_, insKey_sorted e l h.2⟩
      intro y hy
      rcases List.mem_cons.1 ((insKey_perm e l).mem_iff.1 hy) with rfl | hy
      · have := (strcmp_pos y.key x.key).1 (by omega)
        omega
      · exact h.1 y hy

theorem insSort_isQsort : IsQsort insSort := by
  constructor
  · intro l
    induction l with
    | nil => exact .refl _
    | cons e l ih => exact (insKey_perm e _).trans (ih.cons e)
  · intro l
    induction l with
    | nil => exact .nil
    | cons e l ih => exact insKey_sorted e _ ih

/-- A history with new, changed, removed and re-created keys. -/
def kvDemo : List KOp :=
  [.sets [98] [120], .set [97] [1, 2], .sort, .set [99] [5], .set [97] [2, 7], .remove [98], .set [97] [2, 7],
    .sets [98] [121], .sort, .remove [99], .remove [100]]

theorem kvDemo_compat : Compat kvDemo := by
  have key : ∀ n, n < kvDemo.length → ∀ k v, (kvDemo[n]?).bind KOp.sets? = some (k, v) →
      ∀ old, kvSpec (kvDemo.take n) k = some old → old = v ∨ Unrelated old v := by
    unfold Unrelated
    intro n hn k v h old hold
    have : n = 0 ∨ n = 1 ∨ n = 2 ∨ n = 3 ∨ n = 4 ∨ n = 5 ∨ n = 6 ∨ n = 7 ∨ n = 8 ∨ n = 9 ∨ n = 10 := by
      simp only [kvDemo, List.length_cons, List.length_nil] at hn
      omega
    rcases this with rfl | rfl | rfl | rfl | rfl | rfl | rfl | rfl | rfl | rfl | rfl <;>
      simp only [kvDemo, List.getElem?_cons_succ, List.getElem?_cons_zero, Option.bind_some, KOp.sets?,
        Option.some.injEq, Prod.mk.injEq, reduceCtorEq] at h <;>
      obtain ⟨rfl, rfl⟩ := h <;> simp [kvDemo, kvSpec, kvStep] at hold <;> subst hold <;> decide
  intro pre o post k v hp ho old hold
  refine key pre.length (by rw [hp]; simp) k v (by rw [hp]; simpa using ho) old ?_
  rw [hp]
  simpa using hold

example : ∃ s, runKOps insSort kvDemo kvsNew = some s ∧ ∀ k, kvsGet s k = some (kvSpec kvDemo k) :=
  C25_map_partial insSort_isQsort kvDemo kvDemo_compat

example : kvSpec kvDemo [97] = some [2, 7] ∧ kvSpec kvDemo [98] = some [121, 0] ∧ kvSpec kvDemo [99] = none := by
  decide

example : ∃ s, runKOps insSort [.sets [97] [98], .sort, .sets [97] [98, 99], .sets [98] []] kvsNew = some s ∧
    ∀ k, kvsGet s k = some (kvSpec [.sets [97] [98], .sort, .sets [97] [98, 99], .sets [98] []] k) :=
  C25_strings insSort_isQsort _ (by simp) (by
    intro k v h
    simp only [List.mem_cons, KOp.sets.injEq, reduceCtorEq, List.not_mem_nil, or_false, false_or] at h
    rcases h with ⟨_, rfl⟩ | ⟨_, rfl⟩ | ⟨_, rfl⟩ <;> decide)

/-- Both defects from an empty store. -/
example : (runKOps insSort [.set [97] [1, 2], .set [97] [1]] kvsNew).bind (kvsGet · [97]) = some (some [1, 2]) ∧
    runKOps insSort [.set [97] [1], .set [97] [1, 2]] kvsNew = none := by
  decide +kernel

/-- `laik_kvs_remove` reports success for a key already removed, which is
journaled again. -/
theorem C25_remove_twice :
    ((runKOps insSort [.set [97] [1], .remove [97]] kvsNew).bind (kvsRemove · [97])).map (·.1) = some true := by
  decide +kernel

end Laik
