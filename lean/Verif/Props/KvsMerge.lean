import Verif.Model.KvsMerge
import Verif.Props.Kvs
/-!
# C27: merging change journals is a conflict-checked union

`SrcRep c a`: the journal `c` was sorted and holds the changes `a`.
-/

namespace Laik

/-- Sorting makes a journal with different keys ready for merging. -/
theorem sorted_journal {q} (hq : IsQsort q) {c : Changes} {l} (h : JInv c l) (hl : ∀ x ∈ l, 0 ∉ x.1 ∧ x.2 ≠ [])
    (hn : (l.map (·.1)).Nodup) :
    ∃ c' a, chSort q c = some c' ∧ SrcRep c' a ∧ a.Perm l ∧ c'.off = c.off ∧ c'.data = c.data ∧
      c'.offSize = c.offSize ∧ c'.entSize = c.entSize := by
  have hs := chSort_spec hq h hl
  let back : KEnt → Bytes × Bytes := fun e => (e.key, e.value.getD [])
  have hp := hq.perm (l.map toEnt)
  have ha : ((q (l.map toEnt)).map back).Perm l := by
    have := hp.map back
    rw [List.map_map] at this
    have hid : back ∘ toEnt = id := by funext x; rfl
    rwa [hid, List.map_id] at this
  have hb : ((q (l.map toEnt)).map back).map toEnt = q (l.map toEnt) := by
    rw [List.map_map]
    conv_rhs => rw [← List.map_id (q (l.map toEnt))]
    apply List.map_congr_left
    intro e he
    have := hp.mem_iff.1 he
    rw [List.mem_map] at this
    obtain ⟨x, _, rfl⟩ := this
    rfl
  refine ⟨_, (q (l.map toEnt)).map back, hs, ⟨?_, ?_, ?_, ?_⟩, ha, rfl, rfl, rfl, rfl⟩
  · exact hb.symm
  · unfold SS
    have hk : (((q (l.map toEnt)).map back).map (·.1)).Nodup := (ha.map (·.1)).nodup_iff.2 hn
    have h1 : ((q (l.map toEnt)).map back).Pairwise (fun a b => a.1 ≠ b.1) := by
      unfold List.Nodup at hk
      rw [List.pairwise_map] at hk
      exact hk
    have h2 : ((q (l.map toEnt)).map back).Pairwise (fun a b => strcmp a.1 b.1 ≤ 0) := by
      rw [List.pairwise_map]
      exact hq.sorted _
    refine List.Pairwise.imp ?_ (h2.and h1)
    rintro a b ⟨hab, hne⟩
    rcases strcmp_tri a.1 b.1 with h3 | h3 | h3
    · exact h3
    · exact absurd h3 hne
    · have := (strcmp_pos a.1 b.1).2 h3
      omega
  · simp only [h.off, jOff_length]
    rw [ha.length_eq]
    by_cases h0 : l = []
    · subst h0
      have := ha.eq_nil
      rw [if_pos rfl, if_pos this]
    · rw [if_neg h0, if_neg (by intro h1; rw [h1] at ha; exact h0 ha.nil_eq.symm)]
  · simp only [h.data]
    unfold jData
    exact (ha.flatMap_right _).length_eq.symm

/-- C27: merging two sorted journals without conflicting values does not abort,
for any previous content of the destination.  The result is written in sorted
order, with every key once, and holds exactly the changes of both. -/
theorem C27_union (dst : Changes) {c1 c2 : Changes} {a b} (h1 : SrcRep c1 a) (h2 : SrcRep c2 b)
    (hn : ∀ k v w, (k, v) ∈ a → (k, w) ∈ b → v = w) :
    ∃ d m, chMerge dst c1 c2 = some d ∧ SrcRep d m ∧ d.off = jOff m ∧ d.data = jData m ∧
      (m.map (·.1)).Nodup ∧ (∀ x, x ∈ m ↔ x ∈ a ∨ x ∈ b) := by
  obtain ⟨d, m, g1, g2, g3, g4⟩ := chMerge_spec dst h1 h2 hn
  refine ⟨d, m, g1, g2.src g3, g2.off, g2.data, ?_, g4⟩
  unfold List.Nodup
  rw [List.pairwise_map]
  exact List.Pairwise.imp (fun h => strcmp_neg_ne h) g3

/-- C27 (partial): a conflict is detected if the values have different length or
differ before the first 0 byte.  Missing: differences after a 0 byte, which are
not detected (`C27_conflict_missed`). -/
theorem C27_conflict_partial (dst : Changes) {c1 c2 : Changes} {a b} (h1 : SrcRep c1 a) (h2 : SrcRep c2 b)
    {k v w : Bytes} (hv : (k, v) ∈ a) (hw : (k, w) ∈ b)
    (hd : v.length ≠ w.length ∨ ∃ p x y r s, v = p ++ x :: r ∧ w = p ++ y :: s ∧ x ≠ y ∧ 0 ∉ p) :
    chMerge dst c1 c2 = none := by
  obtain ⟨d, _, _, _, _, e⟩ := chMerge_start dst c1 c2
  rw [e, h1.ent, h2.ent]
  refine chMergeGo_conflict a b d h1.sorted h2.sorted ⟨k, v, w, hv, hw, ?_⟩
  rcases hd with hd | ⟨p, x, y, r, s, rfl, rfl, hne, hp⟩
  · exact .inl hd
  · refine .inr ?_
    clear hv hw
    induction p with
    | nil => simp [strncmpEq, hne]
    | cons z p ih =>
      rw [List.mem_cons, not_or] at hp
      have hz : ¬ z = 0 := fun h => hp.1 h.symm
      simp only [List.cons_append, strncmpEq, if_true, if_neg hz]
      exact ih hp.2

theorem first_diff : ∀ {s t : Bytes}, s ≠ t → 0 ∉ s → 0 ∉ t →
    ∃ p x y u w, s ++ [0] = p ++ x :: u ∧ t ++ [0] = p ++ y :: w ∧ x ≠ y ∧ 0 ∉ p
  | [], [], h, _, _ => absurd rfl h
  | [], b :: t, _, _, ht => ⟨[], 0, b, [], t ++ [0], rfl, rfl, fun h => ht (by simp [h]), by simp⟩
  | a :: s, [], _, hs, _ => ⟨[], a, 0, s ++ [0], [], rfl, rfl, fun h => hs (by simp [h]), by simp⟩
  | a :: s, b :: t, h, hs, ht => by
    by_cases hab : a = b
    · subst hab
      rw [List.mem_cons, not_or] at hs ht
      obtain ⟨p, x, y, u, w, h1, h2, h3, h4⟩ := first_diff (s := s) (t := t) (fun h' => h (by rw [h'])) hs.2 ht.2
      refine ⟨a :: p, x, y, u, w, by simp [h1], by simp [h2], h3, ?_⟩
      rw [List.mem_cons, not_or]
      exact ⟨hs.1, h4⟩
    · exact ⟨[], a, b, s ++ [0], t ++ [0], rfl, rfl, hab, by simp⟩

/-- Every conflict of string values is detected. -/
theorem C27_conflict_strings (dst : Changes) {c1 c2 : Changes} {a b} (h1 : SrcRep c1 a) (h2 : SrcRep c2 b)
    {k s t : Bytes} (hv : (k, s ++ [0]) ∈ a) (hw : (k, t ++ [0]) ∈ b) (hs : 0 ∉ s) (ht : 0 ∉ t) (hne : s ≠ t) :
    chMerge dst c1 c2 = none :=
  C27_conflict_partial dst h1 h2 hv hw (.inr (first_diff hne hs ht))

/-- Sorted journal with the given changes. -/
def mkSorted (a : List (Bytes × Bytes)) : Changes :=
  ⟨jOff a, jData a, a.map toEnt, (jOff a).length, (jData a).length, a.length⟩

theorem mkSorted_rep {a} (h : SS a) : SrcRep (mkSorted a) a :=
  ⟨rfl, h, by simp only [mkSorted, jOff_length], rfl⟩

/-- Different values with a 0 byte before the difference are merged without
complaint, and the result depends on the order. -/
theorem C27_conflict_missed :
    (chMerge chInit (mkSorted [([97], [0, 1])]) (mkSorted [([97], [0, 2])])).map (·.ent) =
      some [⟨[97], some [0, 1], false⟩] ∧
    (chMerge chInit (mkSorted [([97], [0, 2])]) (mkSorted [([97], [0, 1])])).map (·.ent) =
      some [⟨[97], some [0, 2], false⟩] := by
  decide +kernel

/-- A journal with the same key more than once cannot be merged. -/
theorem C27_duplicate_aborts (dst : Changes) {c1 c2 : Changes} {a b : List (Bytes × Bytes)} (h1 : c1.ent = a.map toEnt)
    (h2 : c2.ent = b.map toEnt) (hd : ¬ (a.map (·.1)).Nodup ∨ ¬ (b.map (·.1)).Nodup) : chMerge dst c1 c2 = none := by
  obtain ⟨d, e1, _, _, _, e⟩ := chMerge_start dst c1 c2
  rw [e, h1, h2]
  cases h : chMergeGo (a.map toEnt) (b.map toEnt) d with
  | none => rfl
  | some d' =>
    obtain ⟨_, _, _, _, _, h5, h6⟩ := chMergeGo_some a b [] d d' e1 .nil h
    rcases hd with hd | hd
    · exact absurd h5 hd
    · exact absurd h6 hd

/-- Ways to merge numbered journals. -/
inductive MTree
  | leaf (i : Nat)
  | node (l r : MTree)

def MTree.leaves : MTree → List Nat
  | .leaf i => [i]
  | .node l r => l.leaves ++ r.leaves

/-- Merge as given by the tree, each time into a new journal. -/
def MTree.eval (env : Nat → Changes) : MTree → Option Changes
  | .leaf i => some (env i)
  | .node l r => (l.eval env).bind fun a => (r.eval env).bind fun b => chMerge chInit a b

theorem mtree_eval {env : Nat → Changes} {cont : Nat → List (Bytes × Bytes)} :
    ∀ (t : MTree), (∀ i ∈ t.leaves, SrcRep (env i) (cont i)) →
    (∀ i ∈ t.leaves, ∀ j ∈ t.leaves, NoConf (cont i) (cont j)) →
    ∃ d m, t.eval env = some d ∧ SrcRep d m ∧ (∀ x, x ∈ m ↔ ∃ i ∈ t.leaves, x ∈ cont i)
  | .leaf i, h, _ => ⟨env i, cont i, rfl, h i (by simp [MTree.leaves]), by simp [MTree.leaves]⟩
  | .node l r, h, hn => by
    obtain ⟨d1, m1, e1, s1, x1⟩ := mtree_eval l (fun i hi => h i (by simp [MTree.leaves, hi]))
      (fun i hi j hj => hn i (by simp [MTree.leaves, hi]) j (by simp [MTree.leaves, hj]))
    obtain ⟨d2, m2, e2, s2, x2⟩ := mtree_eval r (fun i hi => h i (by simp [MTree.leaves, hi]))
      (fun i hi j hj => hn i (by simp [MTree.leaves, hi]) j (by simp [MTree.leaves, hj]))
    obtain ⟨d, m, g1, g2, g3, g4⟩ := chMerge_spec chInit s1 s2 (by
      intro k v w hv hw
      obtain ⟨i, hi, hv⟩ := (x1 _).1 hv
      obtain ⟨j, hj, hw⟩ := (x2 _).1 hw
      exact hn i (by simp [MTree.leaves, hi]) j (by simp [MTree.leaves, hj]) k v w hv hw)
    refine ⟨d, m, by simp only [MTree.eval, e1, e2, Option.bind_some, g1], g2.src g3, ?_⟩
    intro x
    rw [g4, x1, x2]
    simp only [MTree.leaves, List.mem_append]
    constructor
    · rintro (⟨i, hi, hx⟩ | ⟨i, hi, hx⟩)
      · exact ⟨i, .inl hi, hx⟩
      · exact ⟨i, .inr hi, hx⟩
    · rintro ⟨i, hi | hi, hx⟩
      · exact .inl ⟨i, hi, hx⟩
      · exact .inr ⟨i, hi, hx⟩

/-- C27: for non-conflicting journals, the entries resulting from merging do not
depend on order and grouping. -/
theorem C27_order {env : Nat → Changes} {cont : Nat → List (Bytes × Bytes)} (s t : MTree)
    (hst : ∀ i, i ∈ s.leaves ↔ i ∈ t.leaves) (h : ∀ i ∈ s.leaves, SrcRep (env i) (cont i))
    (hn : ∀ i ∈ s.leaves, ∀ j ∈ s.leaves, ∀ k v w, (k, v) ∈ cont i → (k, w) ∈ cont j → v = w) :
    ∃ d d', s.eval env = some d ∧ t.eval env = some d' ∧ d.ent = d'.ent := by
  obtain ⟨d, m, e1, s1, x1⟩ := mtree_eval s h hn
  obtain ⟨d', m', e2, s2, x2⟩ := mtree_eval t (fun i hi => h i ((hst i).2 hi))
    (fun i hi j hj => hn i ((hst i).2 hi) j ((hst j).2 hj))
  refine ⟨d, d', e1, e2, ?_⟩
  have : m = m' := ss_ext s1.sorted s2.sorted (by
    intro x
    rw [x1, x2]
    constructor
    · rintro ⟨i, hi, hx⟩; exact ⟨i, (hst i).1 hi, hx⟩
    · rintro ⟨i, hi, hx⟩; exact ⟨i, (hst i).2 hi, hx⟩)
  rw [s1.ent, s2.ent, this]

/-- Journals of three processes, two with the same change. -/
def jDemo : Nat → List (Bytes × Bytes)
  | 0 => [([97], [1]), ([99, 100], [2, 3])]
  | 1 => [([98], [0]), ([99, 100], [2, 3])]
  | _ => [([99], [7])]

theorem jDemo_ss (i : Nat) : SS (jDemo i) := by
  unfold SS
  match i with
  | 0 => decide
  | 1 => decide
  | n + 2 => exact List.pairwise_singleton _ _

theorem jDemo_noconf (i j : Nat) : NoConf (jDemo i) (jDemo j) := by
  intro k v w hv hw
  match i, j with
  | 0, 0 | 0, 1 | 0, j + 2 | 1, 0 | 1, 1 | 1, j + 2 | i + 2, 0 | i + 2, 1 | i + 2, j + 2 =>
    simp only [jDemo, List.mem_cons, Prod.mk.injEq, List.not_mem_nil, or_false] at hv hw
    rcases hv with ⟨rfl, rfl⟩ | ⟨rfl, rfl⟩ <;> simp_all

example : ∃ d m, chMerge chInit (mkSorted (jDemo 0)) (mkSorted (jDemo 1)) = some d ∧ SrcRep d m ∧ d.off = jOff m ∧
    d.data = jData m ∧ (m.map (·.1)).Nodup ∧ (∀ x, x ∈ m ↔ x ∈ jDemo 0 ∨ x ∈ jDemo 1) :=
  C27_union chInit (mkSorted_rep (jDemo_ss 0)) (mkSorted_rep (jDemo_ss 1)) (jDemo_noconf 0 1)

example : (chMerge chInit (mkSorted (jDemo 0)) (mkSorted (jDemo 1))).map (fun d => (d.off, d.data)) =
    some ([0, 2, 3, 5, 6, 9, 11], [97, 0, 1, 98, 0, 0, 99, 100, 0, 2, 3]) := by
  decide +kernel

example : ∃ d d', (MTree.node (.leaf 0) (.node (.leaf 1) (.leaf 2))).eval (fun i => mkSorted (jDemo i)) = some d ∧
    (MTree.node (.node (.leaf 2) (.leaf 0)) (.leaf 1)).eval (fun i => mkSorted (jDemo i)) = some d' ∧ d.ent = d'.ent :=
  C27_order _ _ (by intro i; simp [MTree.leaves]; omega) (fun i _ => mkSorted_rep (jDemo_ss i))
    (fun i _ j _ => jDemo_noconf i j)

example : chMerge chInit (mkSorted [([97], [98, 0])]) (mkSorted [([97], [99, 0]), ([98], [1])]) = none :=
  C27_conflict_strings chInit (k := [97]) (s := [98]) (t := [99]) (mkSorted_rep (by unfold SS; decide))
    (mkSorted_rep (by unfold SS; decide)) (by simp) (by simp) (by decide) (by decide) (by decide)

example : chMerge chInit (mkSorted [([97], [1]), ([97], [2])]) (mkSorted [([98], [1])]) = none :=
  C27_duplicate_aborts chInit (a := [([97], [1]), ([97], [2])]) (b := [([98], [1])]) rfl rfl (.inl (by decide))

end Laik
