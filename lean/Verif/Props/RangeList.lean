import Verif.Model.RangeListLemmas
/-!
# C06, C07: freezing and enumerating range lists
-/

namespace Laik

/-- Specification: process `t` owns index `p` under tag `g`. -/
def OwnsTag (d : Dims) (l : List TR) (t : Nat) (g : Int) (p : Idx) : Prop :=
  ∃ r ∈ l, r.task = t ∧ r.tag = g ∧ Mem d r.box p

/-- Specification: process `t` owns index `p`. -/
def Owns (d : Dims) (l : List TR) (t : Nat) (p : Idx) : Prop :=
  ∃ r ∈ l, r.task = t ∧ Mem d r.box p

/-! ## C06 -/

/-- Freezing without merging never aborts and keeps exactly the appended
(owner, tag, range) entries. -/
theorem C06_freeze_keeps_entries (d : Dims) (n : Nat) (appended sorted : List TR)
    (hsort : IsSortOf sorted appended) (hlt : ∀ t ∈ appended, t.task < n) :
    ∃ l, freeze d n false sorted = some l ∧ l.tidCount = n ∧
      (l.tr.map TR.key).Perm (appended.map TR.key) := by
  have hlt' : ∀ t ∈ sorted, t.task < n := fun t ht => hlt t (hsort.1.mem_iff.1 ht)
  refine ⟨_, by simp [freeze, updateOffsets_spec n sorted hsort.2 hlt']; rfl, rfl, ?_⟩
  simp only
  rw [groups_flatten_key n sorted hsort.2 hlt']
  exact hsort.1.map _

/-- Freezing with merging in 1d never aborts for a non-empty list and keeps
ownership of every index under every tag. -/
theorem C06_freeze_merge_ownership (n : Nat) (appended sorted : List TR)
    (hsort : IsSortOf sorted appended) (hlt : ∀ t ∈ appended, t.task < n) (hne : appended ≠ []) :
    ∃ l, freeze .d1 n true sorted = some l ∧ l.tidCount = n ∧
      (∀ t g p, OwnsTag .d1 l.tr t g p ↔ OwnsTag .d1 appended t g p) ∧
      l.tr.Pairwise (fun a b => a.task = b.task → a.tag = b.tag → a.box.hi.x < b.box.lo.x) := by
  cases hs : sorted with
  | nil => exact absurd (by have := hsort.1; rw [hs] at this; exact List.nil_perm.1 this) hne
  | cons t ts =>
    have hsorted := hsort.2
    rw [hs] at hsorted
    obtain ⟨hsep, hfrom⟩ := mergeGo_sep t ts hsorted
    have hlt' : ∀ r ∈ mergeGo t ts, r.task < n := by
      intro r hr
      obtain ⟨u, hu, e, _⟩ := hfrom r hr
      rw [e]; exact hlt u (hsort.1.mem_iff.1 (by rw [hs]; exact hu))
    have hpw := hsep.imp (fun {a b} h => h.1)
    have hkey := groups_flatten_key n _ hpw hlt'
    refine ⟨_, by simp [freeze, mergeSorted, updateOffsets_spec n _ hpw hlt']; rfl, rfl, ?_, ?_⟩
    · intro t' g p
      have h1 := mergeGo_own t ts hsorted t' g p
      have h2 : OwnsTag .d1 (groups (mergeGo t ts) 0 n).flatten t' g p ↔
          OwnsTag .d1 (mergeGo t ts) t' g p := by
        constructor
        · rintro ⟨r, hr, a, b, c⟩
          obtain ⟨u, hu, e1, e2, e3⟩ := mem_of_key hkey hr
          exact ⟨u, hu, by omega, by omega, by rw [e3]; exact c⟩
        · rintro ⟨r, hr, a, b, c⟩
          obtain ⟨u, hu, e1, e2, e3⟩ := mem_of_key hkey.symm hr
          exact ⟨u, hu, by omega, by omega, by rw [e3]; exact c⟩
      rw [h2]
      unfold OwnsTag
      rw [h1]
      constructor
      · rintro ⟨r, hr, e⟩; exact ⟨r, hsort.1.mem_iff.1 (by rw [hs]; exact hr), e⟩
      · rintro ⟨r, hr, e⟩; exact ⟨r, by have := hsort.1.mem_iff.2 hr; rw [hs] at this; exact this, e⟩
    · have h1 : ((mergeGo t ts).map TR.key).Pairwise
          (fun a b => a.1 = b.1 → a.2.1 = b.2.1 → a.2.2.hi.x < b.2.2.lo.x) := by
        rw [List.pairwise_map]; exact hsep.imp (fun h => h.2)
      rw [← hkey, List.pairwise_map] at h1
      exact h1

/-- Violation: freezing with merging aborts when no range was appended (for
example because a filter dropped all of them). -/
theorem C06_merge_empty_aborts (d : Dims) (n : Nat) : freeze d n true [] = none := rfl

/-- The merge step is only defined in 1d: otherwise it always aborts. -/
theorem C06_merge_multidim_aborts (d : Dims) (n : Nat) (l : List TR) (hd : d ≠ .d1) :
    freeze d n true l = none := by
  cases l <;> simp [freeze, mergeSorted, hd]

/-- Single-index format: freezing never aborts, keeps ownership, and yields
non-empty ranges of one process separated by gaps. -/
theorem C06_freeze_single_index (n : Nat) (appended sorted : List (Nat × Int))
    (hperm : sorted.Perm appended) (hs : sorted.Pairwise siLe)
    (hlt : ∀ a ∈ appended, a.1 < n) (hne : appended ≠ []) :
    ∃ l, freezeSI n sorted = some l ∧ l.tidCount = n ∧
      (∀ t p, Owns .d1 l.tr t p ↔ (t, p.x) ∈ appended) ∧
      l.tr.Pairwise (fun a b => a.task = b.task → a.box.hi.x < b.box.lo.x) ∧
      (∀ r ∈ l.tr, r.box.lo.x < r.box.hi.x) := by
  cases hsd : sorted with
  | nil => exact absurd (by rw [hsd] at hperm; exact List.nil_perm.1 hperm) hne
  | cons a rest =>
    obtain ⟨t, i⟩ := a
    rw [hsd] at hs hperm
    obtain ⟨off, tr, hf, hg⟩ := freezeSI_grouped n t i rest hs (fun a ha => hlt a (hperm.mem_iff.1 ha))
    obtain ⟨hsep, hfrom⟩ := siGo_sep t i i rest (by omega) hs
    have htask : ∀ r ∈ siGo t i i rest, r.task < n := by
      intro r hr
      rcases (hfrom r hr).2.2.2 with ⟨a, _⟩ | h
      · rw [a]; exact hlt (t, i) (hperm.mem_iff.1 (by simp))
      · exact hlt _ (hperm.mem_iff.1 (List.mem_cons_of_mem _ h))
    have hfl := groupsSI_flatten n 0 (siGo t i i rest) (hsep.imp (fun h => h.2.1))
      (fun _ _ => Nat.zero_le _) (fun r hr => by have := htask r hr; omega)
    have htr : tr = siGo t i i rest := by have := hg.tr; simp only at this; rw [this, hfl]
    subst htr
    refine ⟨_, hf, rfl, ?_, ?_, ?_⟩
    · intro t' p
      unfold Owns
      simp only
      rw [siGo_own t i i rest (by omega) t' p, ← hperm.mem_iff]
      simp only [List.mem_cons, Prod.mk.injEq]
      constructor
      · rintro (⟨rfl, h⟩ | h)
        · exact Or.inl ⟨rfl, by omega⟩
        · exact Or.inr h
      · rintro (⟨rfl, h⟩ | h)
        · exact Or.inl ⟨rfl, by omega, by omega⟩
        · exact Or.inr h
    · exact hsep.imp (fun h => h.2.2)
    · intro r hr; exact (hfrom r hr).1

example : freeze .d1 3 true
    [⟨0, 0, ⟨⟨0,0,0⟩,⟨3,0,0⟩⟩, 0⟩, ⟨0, 0, ⟨⟨2,0,0⟩,⟨5,0,0⟩⟩, 0⟩, ⟨2, 0, ⟨⟨5,0,0⟩,⟨9,0,0⟩⟩, 0⟩] =
    some ⟨3, [⟨0, 0, ⟨⟨0,0,0⟩,⟨5,0,0⟩⟩, 0⟩, ⟨2, 0, ⟨⟨5,0,0⟩,⟨9,0,0⟩⟩, 0⟩], [0, 1, 1, 2], none, []⟩ := by
  decide
example : freezeSI 2 [(0, 3), (0, 4), (0, 4), (1, 0)] =
    some ⟨2, [⟨0, 0, ⟨⟨3,0,0⟩,⟨5,0,0⟩⟩, 0⟩, ⟨1, 0, ⟨⟨0,0,0⟩,⟨1,0,0⟩⟩, 0⟩], [0, 1, 2], none, []⟩ := by
  decide

/-! ## C07 -/

/-- Enumerating the ranges of process `tid` yields, in order, exactly the
entries of `tid` in the sorted list: number `n` exists iff there are more than
`n` of them, and no call aborts. -/
theorem C07_enumerate (d : Dims) (n : Nat) (sorted : List TR) (hs : sorted.Pairwise trLe)
    (hlt : ∀ t ∈ sorted, t.task < n) (tid : Nat) (ht : tid < n) :
    ∃ l, ∃ own : List TR, freeze d n false sorted = some l ∧
      own.map TR.key = (sorted.filter (fun t => t.task = tid)).map TR.key ∧
      l.tidRangeCount tid = some own.length ∧
      ∀ k, l.tidRange tid k = some own[k]? := by
  obtain ⟨off, tr, hu, hg⟩ := updateOffsets_grouped sorted n hs hlt
  have hlen : tid < (groups sorted 0 n).length := by rw [groups_length]; exact ht
  refine ⟨{ tidCount := n, tr, off }, (groups sorted 0 n)[tid], by simp [freeze, hu], ?_,
    hg.rangeCount tid hlen, fun k => hg.tidRange tid k hlen⟩
  rw [groups_get sorted n tid ht]
  exact assignMaps_key _ _ _

/-- Freezing with merging is freezing of the merged list, which is sorted: so the
theorems on enumeration apply to it as well. -/
theorem C07_after_merge (d : Dims) (n : Nat) (sorted : List TR) (hs : sorted.Pairwise trLe)
    (hlt : ∀ t ∈ sorted, t.task < n) (l : RangeList) (h : freeze d n true sorted = some l) :
    ∃ merged, freeze d n false merged = some l ∧ merged.Pairwise trLe ∧ (∀ t ∈ merged, t.task < n) ∧
      ∀ r ∈ merged, ∃ u ∈ sorted, r.task = u.task ∧ r.tag = u.tag := by
  cases sorted with
  | nil => cases h
  | cons t ts =>
    by_cases hd : d = .d1
    · obtain ⟨hsep, hfrom⟩ := mergeGo_sep t ts hs
      refine ⟨mergeGo t ts, by simpa [freeze, mergeSorted, hd] using h, hsep.imp (fun h => h.1), ?_, ?_⟩
      · intro r hr; obtain ⟨u, hu, e, _⟩ := hfrom r hr; rw [e]; exact hlt u hu
      · intro r hr; obtain ⟨u, hu, e, e2, _⟩ := hfrom r hr; exact ⟨u, hu, e, e2⟩
    · simp [freeze, mergeSorted, hd] at h

/-- Map numbers (generic format, tags not negative; the full property is false
for tag -1, see `C07_tag_minus_one`, and for the single-index format where all
ranges share one map, see `C07_single_index`): numbered from 0 without
gaps up to the reported map count, and two different ranges of one process
share a map iff they have the same non-zero tag; enumerating per map gives
exactly the ranges with that map number in order. -/
theorem C07_maps_partial (d : Dims) (n : Nat) (sorted : List TR) (hs : sorted.Pairwise trLe)
    (hlt : ∀ t ∈ sorted, t.task < n) (htag : ∀ t ∈ sorted, 0 ≤ t.tag)
    (tid : Nat) (ht : tid < n) :
    ∃ l, ∃ own : List TR, ∃ mc : Nat, freeze d n false sorted = some l ∧
      own.map TR.key = (sorted.filter (fun t => t.task = tid)).map TR.key ∧
      (∀ k, l.tidRange tid k = some own[k]?) ∧
      l.tidMapCount tid = some (mc : Int) ∧
      (∀ m : Int, (0 ≤ m ∧ m < mc) ↔ ∃ t ∈ own, t.mapNo = m) ∧
      own.Pairwise (fun a b => a.mapNo = b.mapNo ↔ a.tag = b.tag ∧ a.tag ≠ 0) ∧
      (∀ m k, l.tidMapRange tid m k = some (own.filter (fun t => t.mapNo = ((m : Nat) : Int)))[k]?) := by
  obtain ⟨off, tr, hu, hg⟩ := updateOffsets_grouped sorted n hs hlt
  have hlen : tid < (groups sorted 0 n).length := by rw [groups_length]; exact ht
  have hown := groups_get sorted n tid ht
  have hs2 : (sorted.filter (fun t => t.task = tid)).Pairwise (fun a b => a.tag ≤ b.tag) := by
    refine List.Pairwise.imp_of_mem ?_ (hs.filter _)
    intro a b ha hb hab
    simp at ha hb
    exact trLe_tag hab (by omega)
  obtain ⟨m1, m2, m3⟩ := assignMaps_spec (-1) (-1) (sorted.filter (fun t => t.task = tid)) hs2
    (fun t ht => by have := htag t (List.mem_filter.1 ht).1; omega)
  rw [← hown] at m1 m2 m3
  have hkey : ((groups sorted 0 n)[tid]).map TR.key =
      (sorted.filter (fun t => t.task = tid)).map TR.key := by rw [hown]; exact assignMaps_key _ _ _
  generalize hgrp : (groups sorted 0 n)[tid] = own at *
  have htag' : ∀ t ∈ own, 0 ≤ t.tag := by
    intro t ht
    obtain ⟨u, hu, _, e, _⟩ := mem_of_key hkey ht
    rw [← e]; exact htag u (List.mem_filter.1 hu).1
  have hge : ∀ t ∈ own, 0 ≤ t.mapNo := by
    intro t ht
    have h1 := m1 t ht
    have h2 := htag' t ht
    have : t.mapNo ≠ -1 := fun h => by have := h1.2.1 h; omega
    omega
  obtain ⟨mc, hmc⟩ : ∃ mc : Nat, MapsOk own mc := by
    rcases List.eq_nil_or_concat own with h | ⟨pre, x, h⟩
    · exact ⟨0, by subst h; simp, by subst h; simp, by subst h; simp, fun _ => rfl⟩
    · have hx := hge x (by rw [h]; simp)
      refine ⟨(x.mapNo + 1).toNat, m2.imp (fun h => h.1), hge, ?_, fun h' => by rw [h] at h'; simp at h'⟩
      intro t ht; rw [h] at ht; simp at ht; subst ht; omega
  have hmc' : MapsOk (groups sorted 0 n)[tid] mc := by rw [hgrp]; exact hmc
  refine ⟨{ tidCount := n, tr, off }, own, mc, by simp [freeze, hu], hkey, ?_,
    hg.mapCount tid hlen mc hmc', ?_, m2.imp (fun h => h.2), ?_⟩
  · intro k; rw [hg.tidRange tid k hlen, hgrp]
  · intro m
    constructor
    · rintro ⟨h0, h1⟩
      apply m3 m (by omega)
      have hne : own ≠ [] := fun h => by have := hmc.nil h; omega
      refine ⟨own.getLast hne, List.getLast_mem hne, ?_⟩
      have := hmc.last _ (List.getLast?_eq_some_getLast hne)
      omega
    · rintro ⟨t, ht, rfl⟩
      exact ⟨hge t ht, hmc.lt t ht⟩
  · intro m k
    rw [hg.tidMapRange tid hlen mc hmc' rfl m k, hgrp]

/-- Single-index format: enumeration per process, and all ranges of a process
are in one map. -/
theorem C07_single_index (n t : Nat) (i : Int) (rest : List (Nat × Int))
    (hs : ((t, i) :: rest).Pairwise siLe) (hlt : ∀ a ∈ (t, i) :: rest, a.1 < n)
    (tid : Nat) (ht : tid < n) :
    ∃ l, ∃ own : List TR, freezeSI n ((t, i) :: rest) = some l ∧
      (∀ k, l.tidRange tid k = some own[k]?) ∧ (∀ r ∈ own, r.task = tid) ∧
      (∀ p, Owns .d1 own tid p ↔ (tid, p.x) ∈ (t, i) :: rest) ∧
      l.tidMapCount tid = some (if own = [] then 0 else 1) ∧
      (∀ k, l.tidMapRange tid 0 k = some own[k]?) := by
  obtain ⟨off, tr, hf, hg⟩ := freezeSI_grouped n t i rest hs hlt
  obtain ⟨hsep, hfrom⟩ := siGo_sep t i i rest (by omega) hs
  have hlen : tid < (groupsSI (siGo t i i rest) 0 n).length := by rw [groupsSI_length]; exact ht
  have hown := groupsSI_get (siGo t i i rest) n tid ht
  have hzero : ∀ r ∈ (siGo t i i rest).filter (fun t => t.task = tid), r.mapNo = 0 :=
    fun r hr => (hfrom r (List.mem_filter.1 hr).1).2.2.1
  rw [← hown] at hzero
  have htid := hg.own tid hlen
  have hOwn : ∀ p, Owns .d1 (groupsSI (siGo t i i rest) 0 n)[tid] tid p ↔ (tid, p.x) ∈ (t, i) :: rest := by
    intro p
    have h := siGo_own t i i rest (by omega) tid p
    rw [hown]
    unfold Owns
    simp only [List.mem_filter, decide_eq_true_eq]
    have h1 : (∃ r, (r ∈ siGo t i i rest ∧ r.task = tid) ∧ r.task = tid ∧ Mem .d1 r.box p) ↔
        (∃ r ∈ siGo t i i rest, r.task = tid ∧ Mem .d1 r.box p) := by
      constructor
      · rintro ⟨r, ⟨a, _⟩, b⟩; exact ⟨r, a, b⟩
      · rintro ⟨r, a, b⟩; exact ⟨r, ⟨a, b.1⟩, b⟩
    rw [h1, h]
    simp only [List.mem_cons, Prod.mk.injEq]
    constructor
    · rintro (⟨rfl, h⟩ | h)
      · exact Or.inl ⟨rfl, by omega⟩
      · exact Or.inr h
    · rintro (⟨rfl, h⟩ | h)
      · exact Or.inl ⟨rfl, by omega, by omega⟩
      · exact Or.inr h
  generalize hgrp : (groupsSI (siGo t i i rest) 0 n)[tid] = own at *
  have hmc : MapsOk own (if own = [] then 0 else 1) := by
    refine ⟨?_, fun r hr => by rw [hzero r hr]; omega, ?_, fun h => by simp [h]⟩
    · exact List.Pairwise.imp_of_mem (R := fun _ _ => True)
        (fun {a b} ha hb _ => by rw [hzero a ha, hzero b hb]; omega)
        (List.pairwise_of_forall (fun _ _ => trivial))
    · intro r hr
      have hm : r ∈ own := List.mem_of_getLast? hr
      rw [hzero r hm, if_neg (List.ne_nil_of_mem hm)]; rfl
  have hmc' : MapsOk (groupsSI (siGo t i i rest) 0 n)[tid] (if own = [] then 0 else 1) := by
    rw [hgrp]; exact hmc
  refine ⟨{ tidCount := n, tr, off }, own, hf, ?_, htid, hOwn, ?_, ?_⟩
  · intro k; rw [hg.tidRange tid k hlen, hgrp]
  · rw [hg.mapCount tid hlen _ hmc']; split <;> rfl
  · intro k
    rw [hg.tidMapRange tid hlen _ hmc' rfl 0 k, hgrp]
    congr 2
    rw [List.filter_eq_self]; intro r hr; simp [hzero r hr]

/-- Outside the scope of `C07_maps_partial`: tag -1 for the first range of a process
yields map number -1, a map count of 0, and an abort on per-map enumeration. -/
theorem C07_tag_minus_one :
    ∃ l, freeze .d1 1 false [⟨0, -1, ⟨⟨0,0,0⟩,⟨5,0,0⟩⟩, 0⟩] = some l ∧
      l.tidMapCount 0 = some 0 ∧ l.tidRangeCount 0 = some 1 ∧ l.tidMapRange 0 0 0 = none :=
  ⟨_, rfl, by decide, by decide, by decide⟩

example : (freeze .d1 2 false
    [⟨0, 0, ⟨⟨0,0,0⟩,⟨1,0,0⟩⟩, 0⟩, ⟨0, 0, ⟨⟨2,0,0⟩,⟨3,0,0⟩⟩, 0⟩, ⟨0, 7, ⟨⟨4,0,0⟩,⟨5,0,0⟩⟩, 0⟩,
     ⟨0, 7, ⟨⟨6,0,0⟩,⟨7,0,0⟩⟩, 0⟩, ⟨1, 7, ⟨⟨8,0,0⟩,⟨9,0,0⟩⟩, 0⟩]).map (fun l => l.tr.map (·.mapNo)) =
    some [0, 1, 2, 2, 0] := by decide

end Laik
