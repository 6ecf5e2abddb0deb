import Verif.Model.Group
import Mathlib.Data.List.Perm.Subperm
/-!
# C28, C29: union and shrinking of groups
-/

namespace Laik

/-! ## C28 -/

/-- Specification: `u` has exactly the processes of both groups, each once. -/
structure IsUnion (l1 l2 u : List Nat) : Prop where
  nodup : u.Nodup
  mem : ∀ x, x ∈ u ↔ x ∈ l1 ∨ x ∈ l2

/-- Specification: table `t` maps position `i` of group `a` to position `j` of
group `b` iff both are the same process. -/
def IsTranslation (t : List (Option Nat)) (a b : List Nat) : Prop :=
  t.length = a.length ∧
  ∀ i j : Nat, t[i]? = some (some j) ↔ ∃ x, a[i]? = some x ∧ b[j]? = some x

/-- The sorted array used by the union: any permutation sorted by location. -/
def IsUnionSort (s : List (Nat × Nat)) (l1 l2 : List Nat) : Prop :=
  s.Perm (unionArray l1 l2) ∧ s.Pairwise (fun a b => a.1 ≤ b.1)

theorem unionSort_mem {s : List (Nat × Nat)} {l1 l2 : List Nat} (h : IsUnionSort s l1 l2) (x : Nat) :
    (∃ i, (x, i) ∈ s) ↔ x ∈ l1 ∨ x ∈ l2 := by
  constructor
  · rintro ⟨i, hi⟩
    rcases (unionArray_mem l1 l2 _).1 (h.1.mem_iff.1 hi) with h' | ⟨_, h'⟩
    · exact Or.inl (List.mem_of_getElem? h')
    · exact Or.inr (List.mem_of_getElem? h')
  · rintro (h' | h')
    · obtain ⟨i, hi⟩ := List.mem_iff_getElem?.1 h'
      exact ⟨i, h.1.mem_iff.2 ((unionArray_mem l1 l2 _).2 (Or.inl hi))⟩
    · obtain ⟨i, hi⟩ := List.mem_iff_getElem?.1 h'
      exact ⟨l1.length + i, h.1.mem_iff.2 ((unionArray_mem l1 l2 _).2
        (Or.inr ⟨by simp, by simpa using hi⟩))⟩

theorem subset_of_count {l1 l2 u : List Nat} (h1 : l1.Nodup) (hu : u.Nodup)
    (hm : ∀ x, x ∈ u ↔ x ∈ l1 ∨ x ∈ l2) (hc : u.length = l1.length) : ∀ x ∈ l2, x ∈ l1 := by
  have hsub : l1 ⊆ u := fun x hx => (hm x).2 (Or.inl hx)
  have hp : l1.Perm u := (List.subperm_of_subset h1 hsub).perm_of_length_le (by omega)
  intro x hx
  exact hp.mem_iff.2 ((hm x).2 (Or.inr hx))

/-- The union always has exactly the processes of both groups. -/
theorem C28_members (mylid : Nat) (g1 g2 : Group) (gid : Nat) (s : List (Nat × Nat))
    (h1 : g1.loc.Nodup) (h2 : g2.loc.Nodup) (hs : IsUnionSort s g1.loc g2.loc) :
    IsUnion g1.loc g2.loc (union mylid g1 g2 gid s).loc := by
  have hinv := union_inv mylid g1.loc g2.loc h1 h2 s hs.1 hs.2
  have hmem : ∀ x, x ∈ (unionLoop mylid g1.loc.length g2.loc.length s).loc ↔ x ∈ g1.loc ∨ x ∈ g2.loc :=
    fun x => (hinv.mem x).trans (unionSort_mem hs x)
  have hnd : (unionLoop mylid g1.loc.length g2.loc.length s).loc.Nodup :=
    hinv.sorted.imp (fun h => Nat.ne_of_lt h)
  have hcount : (unionLoop mylid g1.loc.length g2.loc.length s).loc.length = countLids none s := by
    unfold unionLoop; rw [countLids_eq]; simp
  unfold union
  by_cases c1 : countLids none s = g1.loc.length
  · simp only [c1, if_true]
    have hsub := subset_of_count h1 hnd hmem (by rw [hcount, c1])
    exact ⟨h1, fun x => ⟨Or.inl, fun h => h.elim id (hsub x)⟩⟩
  · by_cases c2 : countLids none s = g2.loc.length
    · simp only [c1, c2, if_false, if_true]
      split
      · omega
      · have hsub := subset_of_count h2 hnd (fun x => (hmem x).trans or_comm) (by rw [hcount, c2])
        exact ⟨h2, fun x => ⟨Or.inr, fun h => h.elim (hsub x) id⟩⟩
    · simp only [c1, c2, if_false]
      exact ⟨hnd, hmem⟩

/-- If a new group is created (it is not one of the given groups), all four
translation tables are exact, the group refers to both parents, and the id of
the own process is the position of its location. -/
theorem C28_tables (mylid : Nat) (g1 g2 : Group) (gid : Nat) (s : List (Nat × Nat))
    (h1 : g1.loc.Nodup) (h2 : g2.loc.Nodup) (hs : IsUnionSort s g1.loc g2.loc)
    (hn1 : union mylid g1 g2 gid s ≠ g1) (hn2 : union mylid g1 g2 gid s ≠ g2) :
    let u := union mylid g1 g2 gid s
    u.parent = some g1.gid ∧ u.parent2 = some g2.gid ∧ u.gid = gid ∧
    IsTranslation u.fromParent g1.loc u.loc ∧ IsTranslation u.toParent u.loc g1.loc ∧
    IsTranslation u.fromParent2 g2.loc u.loc ∧ IsTranslation u.toParent2 u.loc g2.loc ∧
    ∀ j, u.myid = some j ↔ u.loc[j]? = some mylid := by
  have hinv := union_inv mylid g1.loc g2.loc h1 h2 s hs.1 hs.2
  have c1 : ¬ countLids none s = g1.loc.length := by
    intro c; apply hn1; simp [union, c]
  have c2 : ¬ countLids none s = g2.loc.length := by
    intro c; apply hn2; simp [union, c1]; simp [c]
  have hu : union mylid g1 g2 gid s =
      { gid, loc := (unionLoop mylid g1.loc.length g2.loc.length s).loc
        myid := (unionLoop mylid g1.loc.length g2.loc.length s).myid
        parent := some g1.gid, parent2 := some g2.gid
        fromParent := (unionLoop mylid g1.loc.length g2.loc.length s).fromP
        toParent := (unionLoop mylid g1.loc.length g2.loc.length s).toP
        fromParent2 := (unionLoop mylid g1.loc.length g2.loc.length s).fromP2
        toParent2 := (unionLoop mylid g1.loc.length g2.loc.length s).toP2 } := by
    simp [union, c1, c2]
  rw [hu]
  generalize unionLoop mylid g1.loc.length g2.loc.length s = st at hinv
  have hr1 : ∀ i, i < g1.loc.length → ∀ j, URel 0 s st.loc i j ↔
      ∃ x, g1.loc[i]? = some x ∧ st.loc[j]? = some x := by
    intro i hi j
    unfold URel
    constructor
    · rintro ⟨x, hm, hg⟩
      rcases (unionArray_mem g1.loc g2.loc _).1 (hs.1.mem_iff.1 hm) with h | ⟨h, _⟩
      · exact ⟨x, by simpa using h, hg⟩
      · simp at h; omega
    · rintro ⟨x, hx, hg⟩
      exact ⟨x, hs.1.mem_iff.2 ((unionArray_mem g1.loc g2.loc _).2 (Or.inl (by simpa using hx))), hg⟩
  have hr2 : ∀ i, i < g2.loc.length → ∀ j, URel g1.loc.length s st.loc i j ↔
      ∃ x, g2.loc[i]? = some x ∧ st.loc[j]? = some x := by
    intro i hi j
    unfold URel
    constructor
    · rintro ⟨x, hm, hg⟩
      rcases (unionArray_mem g1.loc g2.loc _).1 (hs.1.mem_iff.1 hm) with h | ⟨_, h⟩
      · rw [List.getElem?_eq_none (by simp)] at h; cases h
      · exact ⟨x, by simpa using h, hg⟩
    · rintro ⟨x, hx, hg⟩
      exact ⟨x, hs.1.mem_iff.2 ((unionArray_mem g1.loc g2.loc _).2
        (Or.inr ⟨by simp, by simpa using hx⟩)), hg⟩
  have from_ok : ∀ (n : Nat) (frm : List (Option Nat)) (a : List Nat) (tto : List (Option Nat))
      (R : Nat → Nat → Prop), n = a.length → frm.length = n → Tables n frm tto R →
      (∀ i, i < n → ∀ j, R i j ↔ ∃ x, a[i]? = some x ∧ st.loc[j]? = some x) →
      IsTranslation frm a st.loc := by
    intro n frm a tto R hn hl ht hr
    refine ⟨by omega, fun i j => ?_⟩
    by_cases hi : i < n
    · rw [ht.frm i hi j, hr i hi j]
    · rw [List.getElem?_eq_none (by omega)]
      constructor
      · intro h; cases h
      · rintro ⟨x, hx, _⟩; rw [List.getElem?_eq_none (by omega)] at hx; cases hx
  have to_ok : ∀ (n : Nat) (frm : List (Option Nat)) (a : List Nat) (tto : List (Option Nat))
      (R : Nat → Nat → Prop), n = a.length → tto.length = st.loc.length → Tables n frm tto R →
      (∀ i, i < n → ∀ j, R i j ↔ ∃ x, a[i]? = some x ∧ st.loc[j]? = some x) →
      IsTranslation tto st.loc a := by
    intro n frm a tto R hn hl ht hr
    refine ⟨hl, fun j i => ?_⟩
    rw [ht.tto j i]
    constructor
    · rintro ⟨hi, h⟩; obtain ⟨x, a, b⟩ := (hr i hi j).1 h; exact ⟨x, b, a⟩
    · rintro ⟨x, hx, hy⟩
      have hi : i < n := by
        obtain ⟨h, _⟩ := List.getElem?_eq_some_iff.1 hy; omega
      exact ⟨hi, (hr i hi j).2 ⟨x, hy, hx⟩⟩
  exact ⟨rfl, rfl, rfl, from_ok _ _ _ _ _ rfl hinv.flen hinv.tab hr1,
    to_ok _ _ _ _ _ rfl hinv.len hinv.tab hr1,
    from_ok _ _ _ _ _ rfl hinv.flen2 hinv.tab2 hr2,
    to_ok _ _ _ _ _ rfl hinv.len2 hinv.tab2 hr2, hinv.my⟩

example : union 7 ⟨0, [2, 7], some 1, none, none, [], [], [], []⟩
    ⟨1, [7, 5, 9], some 0, none, none, [], [], [], []⟩ 2
    [(2, 0), (5, 3), (7, 1), (7, 2), (9, 4)] =
    ⟨2, [2, 5, 7, 9], some 2, some 0, some 1, [some 0, some 2], [some 0, none, some 1, none],
      [some 2, some 1, some 3], [none, some 1, some 0, some 2]⟩ := by decide
example : IsUnionSort [(2, 0), (5, 3), (7, 1), (7, 2), (9, 4)] [2, 7] [7, 5, 9] := by
  refine ⟨?_, by decide⟩
  decide

/-! ## C29 -/

/-- Shrinking succeeds iff all ids to remove are valid. -/
theorem C29_success (g : Group) (gid : Nat) (list : List Nat) :
    (∃ g2, shrink g gid list = some g2) ↔ ∀ i ∈ list, i < g.loc.length := by
  unfold shrink
  by_cases h : list.all (· < g.loc.length) = true
  · rw [if_pos h]
    refine ⟨fun _ i hi => ?_, fun _ => ⟨_, rfl⟩⟩
    rw [List.all_eq_true] at h
    simpa using h i hi
  · rw [if_neg h]
    constructor
    · rintro ⟨_, h'⟩; cases h'
    · intro h'
      refine absurd ?_ h
      rw [List.all_eq_true]; intro i hi; simpa using h' i hi

/-- The shrunk group has exactly the processes not removed, in their order. -/
theorem C29_members (g g2 : Group) (gid : Nat) (list : List Nat) (h : shrink g gid list = some g2) :
    g2.gid = gid ∧ g2.parent = some g.gid ∧
    g2.loc = ((List.range g.loc.length).filter (fun i => i ∉ list)).map (fun i => g.loc[i]?.getD 0) ∧
    g2.toParent = ((List.range g.loc.length).filter (fun i => i ∉ list)).map some := by
  unfold shrink at h
  split at h
  · simp only [Option.some.injEq] at h
    subst h
    obtain ⟨_, h2, _, _⟩ := shrinkGo_spec (shrinkMarks g.loc.length list) 0 0
    have e : (shrinkGo 0 0 (shrinkMarks g.loc.length list)).2 =
        (List.range g.loc.length).filter (fun i => i ∉ list) := by
      rw [h2, shrinkMarks_length, ← List.range_eq_range']
      apply List.filter_congr
      intro k hk
      rw [List.mem_range] at hk
      rw [Nat.sub_zero, shrinkMarks_get _ _ _ hk]
      by_cases hm : k ∈ list <;> simp [hm]
    refine ⟨rfl, rfl, ?_, ?_⟩ <;> simp only [e]
  · cases h

/-- Translation tables: -1 exactly for removed processes, otherwise mutually
inverse and leading to the same location; the own id is translated. -/
theorem C29_tables (g g2 : Group) (gid : Nat) (list : List Nat) (h : shrink g gid list = some g2) :
    g2.fromParent.length = g.loc.length ∧ g2.toParent.length = g2.loc.length ∧
    (∀ i : Nat, i < g.loc.length → (g2.fromParent[i]? = some none ↔ i ∈ list)) ∧
    (∀ i j : Nat, g2.fromParent[i]? = some (some j) ↔ g2.toParent[j]? = some (some i)) ∧
    (∀ i j : Nat, g2.fromParent[i]? = some (some j) → ∃ x, g.loc[i]? = some x ∧ g2.loc[j]? = some x) ∧
    (∀ m j : Nat, g.myid = some m → (g2.myid = some j ↔ g2.fromParent[m]? = some (some j))) ∧
    (g.myid = none → g2.myid = none) := by
  have hm := C29_members g g2 gid list h
  unfold shrink at h
  split at h
  · simp only [Option.some.injEq] at h
    subst h
    obtain ⟨h1, h2, h3, h4⟩ := shrinkGo_spec (shrinkMarks g.loc.length list) 0 0
    rw [shrinkMarks_length] at h1
    obtain ⟨_, _, hloc, hto⟩ := hm
    simp only at hloc hto ⊢
    have hinv : ∀ i j : Nat, (shrinkGo 0 0 (shrinkMarks g.loc.length list)).1[i]? = some (some j) ↔
        (shrinkGo 0 0 (shrinkMarks g.loc.length list)).2[j]? = some i := by
      intro i j; rw [h3]; simp
    refine ⟨h1, by simp, ?_, ?_, ?_, ?_, ?_⟩
    · intro i hi
      rw [h4 i (by rw [shrinkMarks_length]; exact hi), shrinkMarks_get _ _ _ hi]
      by_cases hm : i ∈ list <;> simp [hm]
    · intro i j; rw [hinv]; simp
    · intro i j hij
      have hi : i < g.loc.length := by
        obtain ⟨h', _⟩ := List.getElem?_eq_some_iff.1 hij; omega
      rw [hinv] at hij
      refine ⟨g.loc[i], List.getElem?_eq_getElem hi, ?_⟩
      simp [hij, hi]
    · intro m j hm'
      simp only [hm']
      cases (shrinkGo 0 0 (shrinkMarks g.loc.length list)).1[m]? <;> simp
    · intro hm'; simp only [hm']
  · cases h

example : shrink ⟨4, [10, 11, 12, 13], some 2, none, none, [], [], [], []⟩ 5 [1, 3, 1] =
    some ⟨5, [10, 12], some 1, some 4, none, [some 0, none, some 1, none], [some 0, some 2], [], []⟩ := by
  decide

end Laik
