import Verif.Model.Partitioner
import Verif.Props.RangeList
import Mathlib.Data.List.Nodup
/-!
# C09, C10, C15: filters and simple partitioners
-/

namespace Laik

/-! ## C09 -/

/-- Process filter: a run which succeeds without filter succeeds with it, and
stores exactly the entries of the own process, in the same order. -/
theorem C09_process_filter (d : Dims) (space : Box) (n : Nat) (calls : List Call) (full : List TR)
    (tid : Nat) (h : runAppends d space n none calls = some full) :
    runAppends d space n (some (.tid (some tid))) calls = some (full.filter (fun t => t.task = tid)) := by
  have hall := (runAppends_none_iff d space n calls).1 ⟨full, h⟩
  have hfull := runAppends_none d space n calls hall
  rw [h] at hfull
  cases hfull
  rw [runAppends_filter d space n (.tid (some tid)) (fun c => decide (tid = c.task)) calls hall
    (fun c _ => rfl)]
  rw [List.filter_map]
  congr 2
  apply List.filter_congr
  intro c _
  simp only [Call.tr, Function.comp]
  exact decide_eq_decide.2 eq_comm

/-- After freezing (whatever order `qsort` gives equal elements), the own
ranges enumerated from the filtered run are those of the full run. -/
theorem C09_process_filter_frozen (d : Dims) (n : Nat) (full sFull sOwn : List TR) (tid : Nat)
    (ht : tid < n) (hlt : ∀ t ∈ full, t.task < n) (h1 : IsSortOf sFull full)
    (h2 : IsSortOf sOwn (full.filter (fun t => t.task = tid))) :
    ∃ lf lo, freeze d n false sFull = some lf ∧ freeze d n false sOwn = some lo ∧
      ∃ of oo : List TR, (∀ k, lf.tidRange tid k = some of[k]?) ∧ (∀ k, lo.tidRange tid k = some oo[k]?) ∧
        (oo.map TR.key).Perm (of.map TR.key) := by
  have hlt2 : ∀ t ∈ sOwn, t.task < n := fun t h =>
    hlt t (List.mem_filter.1 (h2.1.mem_iff.1 h)).1
  obtain ⟨lf, of, e1, k1, _, r1⟩ := C07_enumerate d n sFull h1.2
    (fun t h => hlt t (h1.1.mem_iff.1 h)) tid ht
  obtain ⟨lo, oo, e2, k2, _, r2⟩ := C07_enumerate d n sOwn h2.2 hlt2 tid ht
  refine ⟨lf, lo, e1, e2, of, oo, r1, r2, ?_⟩
  rw [k1, k2]
  apply List.Perm.map
  have p1 := h1.1.filter (fun t => decide (t.task = tid))
  have p2 := h2.1.filter (fun t => decide (t.task = tid))
  rw [List.filter_filter] at p2
  simp only [Bool.and_self] at p2
  exact p2.trans p1.symm

/-- Specification: the dimension 0 extents of two ranges share an index. -/
def Touches (own : List (Int × Int)) (b : Box) : Prop :=
  ∃ r ∈ own, ∃ x : Int, r.1 ≤ x ∧ x < r.2 ∧ b.lo.x ≤ x ∧ x < b.hi.x

theorem touches_iff {own : List (Int × Int)} (h : SortedDisjoint own) {b : Box}
    (hb : b.lo.x < b.hi.x) : Touches own b ↔ ∃ r ∈ own, r.1 < b.hi.x ∧ b.lo.x < r.2 := by
  constructor
  · rintro ⟨r, hr, x, a, b', c, e⟩; exact ⟨r, hr, by omega, by omega⟩
  · rintro ⟨r, hr, h1, h2⟩
    have := h.2 r hr
    by_cases hc : r.1 ≤ b.lo.x
    · exact ⟨r, hr, b.lo.x, hc, h2, Int.le_refl _, hb⟩
    · exact ⟨r, hr, r.1, Int.le_refl _, this, by omega, h1⟩

open Classical in
theorem mkIdxFilter_keep {own1 own2 : List (Int × Int)} (h1 : SortedDisjoint own1) (h2 : SortedDisjoint own2)
    (hne : own1 ≠ [] ∨ own2 ≠ []) {c : Call} (hq : c.box.lo.x < c.box.hi.x) :
    (mkIdxFilter own1 own2).keep c = some (decide (Touches own1 c.box ∨ Touches own2 c.box)) := by
  have k1 : own1 ≠ [] → idxCheck own1 c.box.lo.x c.box.hi.x = some (decide (Touches own1 c.box)) :=
    fun h => by rw [idxCheck_spec _ h1 h _ _ hq]; congr 1; exact decide_eq_decide.2 (touches_iff h1 hq).symm
  have k2 : own2 ≠ [] → idxCheck own2 c.box.lo.x c.box.hi.x = some (decide (Touches own2 c.box)) :=
    fun h => by rw [idxCheck_spec _ h2 h _ _ hq]; congr 1; exact decide_eq_decide.2 (touches_iff h2 hq).symm
  have hnil : ¬ Touches [] c.box := by rintro ⟨r, hr, _⟩; cases hr
  unfold mkIdxFilter
  cases own1 with
  | nil =>
    cases own2 with
    | nil => simp at hne
    | cons b bs =>
      by_cases ht : Touches (b :: bs) c.box <;> simp [Filter.keep, parCheck, k2, hnil, ht]
  | cons a as =>
    cases own2 with
    | nil => by_cases ht : Touches (a :: as) c.box <;> simp [Filter.keep, parCheck, k1, hnil, ht]
    | cons b bs =>
      by_cases ht : Touches (a :: as) c.box <;> by_cases ht2 : Touches (b :: bs) c.box <;>
        simp [Filter.keep, parCheck, k1, k2, ht, ht2]

/-- Index filter, partial: if the own ranges of both partitionings are sorted,
non-empty and disjoint, and at least one of them has an own range, exactly the
ranges sharing an index with them are stored.  (False in general, see
`C09_index_filter_drops` and `C09_index_filter_no_own`.) -/
theorem C09_index_filter_partial (space : Box) (n : Nat) (calls : List Call) (full : List TR)
    (own1 own2 : List (Int × Int)) (h1 : SortedDisjoint own1) (h2 : SortedDisjoint own2)
    (hne : own1 ≠ [] ∨ own2 ≠ []) (hcalls : ∀ c ∈ calls, c.box.lo.x < c.box.hi.x)
    (h : runAppends .d1 space n none calls = some full) :
    ∃ l, runAppends .d1 space n (some (mkIdxFilter own1 own2)) calls = some l ∧ l.Sublist full ∧
      ∀ t ∈ full, t ∈ l ↔ Touches own1 t.box ∨ Touches own2 t.box := by
  have hall := (runAppends_none_iff .d1 space n calls).1 ⟨full, h⟩
  have hfull := runAppends_none .d1 space n calls hall
  rw [h] at hfull
  cases hfull
  classical
  have hkeep : ∀ c ∈ calls, (mkIdxFilter own1 own2).keep c =
      some (decide (Touches own1 c.box ∨ Touches own2 c.box)) := by
    intro c hc
    rw [mkIdxFilter_keep h1 h2 hne (hcalls c hc)]
  refine ⟨_, runAppends_filter .d1 space n _ _ calls hall hkeep, ?_, ?_⟩
  · exact List.Sublist.map _ List.filter_sublist
  · intro t ht
    obtain ⟨c, hc, rfl⟩ := List.mem_map.1 ht
    constructor
    · intro hm
      obtain ⟨c', hc', e⟩ := List.mem_map.1 hm
      have := (List.mem_filter.1 hc').2
      simp only [decide_eq_true_eq] at this
      have eb : c'.box = c.tr.box := by rw [← e]; rfl
      rw [← eb]; exact this
    · intro hm
      exact List.mem_map_of_mem (List.mem_filter.2 ⟨hc, by simpa [Call.tr] using hm⟩)

/-- Violation: with overlapping own ranges the binary search misses an
intersection and drops a needed range. -/
theorem C09_index_filter_drops :
    (mkIdxFilter [(0, 10), (1, 2), (20, 30)] []).keep ⟨1, ⟨⟨5,0,0⟩,⟨6,0,0⟩⟩, 0⟩ = some false ∧
    Touches [(0, 10), (1, 2), (20, 30)] ⟨⟨5,0,0⟩,⟨6,0,0⟩⟩ := by
  refine ⟨by decide, (0, 10), by simp, 5, ?_⟩
  decide

/-- Violation: own ranges with different tags are sorted by tag first, so
disjoint own ranges may be out of order, which also drops needed ranges. -/
theorem C09_index_filter_drops_tags :
    ∃ l own, freeze .d1 1 false [⟨0, 1, ⟨⟨20,0,0⟩,⟨30,0,0⟩⟩, 0⟩, ⟨0, 2, ⟨⟨0,0,0⟩,⟨10,0,0⟩⟩, 0⟩] = some l ∧
      own = l.tr.map (fun t => (t.box.lo.x, t.box.hi.x)) ∧
      (mkIdxFilter own []).keep ⟨1, ⟨⟨5,0,0⟩,⟨6,0,0⟩⟩, 0⟩ = some false ∧
      Touches own ⟨⟨5,0,0⟩,⟨6,0,0⟩⟩ := by
  refine ⟨_, _, rfl, rfl, by decide, (0, 10), by decide, 5, ?_⟩
  decide

/-- Violation: if the process has no own ranges in both partitionings, no filter
function is set and the first appended range calls a null pointer. -/
theorem C09_index_filter_no_own (space : Box) (n : Nat) (c : Call) (cs : List Call) :
    runAppends .d1 space n (some (mkIdxFilter [] [])) (c :: cs) = none := rfl

example : SortedDisjoint [(0, 3), (3, 5), (8, 9)] := by
  refine ⟨by simp, by simp⟩
example : runAppends .d1 ⟨⟨0,0,0⟩,⟨10,0,0⟩⟩ 2 (some (mkIdxFilter [(0, 3), (3, 5), (8, 9)] []))
    [⟨0, ⟨⟨4,0,0⟩,⟨7,0,0⟩⟩, 0⟩, ⟨1, ⟨⟨5,0,0⟩,⟨8,0,0⟩⟩, 0⟩] =
    some [⟨0, 0, ⟨⟨4,0,0⟩,⟨7,0,0⟩⟩, 0⟩] := by decide

/-! ## C10 -/

theorem within_self (d : Dims) (b : Box) : b.within d b = true := by
  rw [within_iff_dims]; intro k _ _; exact ⟨Int.le_refl _, Int.le_refl _⟩

/-- All: every process owns exactly the whole space. -/
theorem C10_all (d : Dims) (space : Box) (n : Nat) :
    ∃ l, runAppends d space n none (allCalls space n) = some l ∧
      (∀ t p, Owns d l t p ↔ t < n ∧ Mem d space p) ∧
      (∀ t, t < n → (l.filter (fun r => r.task = t)).map (·.box) = [space]) := by
  have h : ∀ c ∈ allCalls space n, c.task < n ∧ c.box.within d space = true := by
    intro c hc
    simp only [allCalls, List.mem_map, List.mem_range] at hc
    obtain ⟨t, ht, rfl⟩ := hc
    exact ⟨ht, within_self d space⟩
  refine ⟨_, runAppends_none d space n _ h, ?_, ?_⟩
  · intro t p
    simp only [Owns, allCalls, List.mem_map, List.mem_range, List.map_map]
    constructor
    · rintro ⟨r, ⟨t', ht', rfl⟩, rfl, hm⟩; exact ⟨ht', hm⟩
    · rintro ⟨ht, hm⟩; exact ⟨_, ⟨t, ht, rfl⟩, rfl, hm⟩
  · intro t ht
    simp only [allCalls, List.map_map]
    rw [List.filter_map, List.map_map]
    have : (List.range n).filter ((fun r : TR => decide (r.task = t)) ∘
        (Call.tr ∘ fun t => (⟨t, space, 0⟩ : Call))) = [t] := by
      have e : ((fun r : TR => decide (r.task = t)) ∘ (Call.tr ∘ fun t => (⟨t, space, 0⟩ : Call))) =
          (fun i => i == t) := by funext i; simp [Call.tr]; rfl
      rw [e]
      rw [List.filter_beq, List.count_eq_one_of_mem List.nodup_range (List.mem_range.2 ht)]
      rfl
    rw [this]; rfl

/-- Master: process 0 owns exactly the whole space, nobody else anything. -/
theorem C10_master (d : Dims) (space : Box) (n : Nat) (hn : 0 < n) :
    ∃ l, runAppends d space n none (masterCalls space) = some l ∧
      ∀ t p, Owns d l t p ↔ t = 0 ∧ Mem d space p := by
  refine ⟨_, runAppends_none d space n _ (by simp [masterCalls, hn, within_self]), ?_⟩
  intro t p
  simp only [Owns, masterCalls, List.map_cons, List.map_nil, List.mem_singleton]
  constructor
  · rintro ⟨r, rfl, h, hm⟩; exact ⟨h.symm, hm⟩
  · rintro ⟨rfl, hm⟩; exact ⟨_, rfl, rfl, hm⟩

/-- Copy: a process owns exactly the indexes of the space whose coordinate
`toDim` lies in the `fromDim` extent of one of its ranges in the other
partitioning, with the same tag; it succeeds iff dimensions are valid and all
non-empty extents fit into the space. -/
theorem C10_copy (d dOther : Dims) (space : Box) (n fromDim toDim : Nat) (other : List TR)
    (hf : fromDim < dOther.toNat) (ht : toDim < d.toNat) (hn : ∀ t ∈ other, t.task < n)
    (hfit : ∀ t ∈ other, space.lo.get toDim ≤ t.box.lo.get fromDim ∧
      t.box.hi.get fromDim ≤ space.hi.get toDim) :
    ∃ cs l, copyCalls d space dOther fromDim toDim other = some cs ∧
      runAppends d space n none cs = some l ∧
      ∀ t g p, OwnsTag d l t g p ↔ Mem d space p ∧
        ∃ r ∈ other, r.task = t ∧ r.tag = g ∧
          r.box.lo.get fromDim ≤ p.get toDim ∧ p.get toDim < r.box.hi.get fromDim := by
  have hd := d.toNat_le
  refine ⟨_, _, by unfold copyCalls; rw [if_pos ⟨hf, ht⟩], runAppends_none d space n _ ?_, ?_⟩
  · intro c hc
    obtain ⟨r, hr, rfl⟩ := List.mem_map.1 hc
    refine ⟨hn r hr, ?_⟩
    rw [within_iff_dims]
    intro k hk
    simp only
    rw [Idx.get_set _ _ _ _ (by omega) (by omega), Idx.get_set _ _ _ _ (by omega) (by omega)]
    intro _
    have := hfit r hr
    split
    · subst k; exact this
    · exact ⟨Int.le_refl _, Int.le_refl _⟩
  · intro t g p
    have hmem : ∀ r ∈ other, Mem d ⟨space.lo.set toDim (r.box.lo.get fromDim),
        space.hi.set toDim (r.box.hi.get fromDim)⟩ p ↔ Mem d space p ∧
          r.box.lo.get fromDim ≤ p.get toDim ∧ p.get toDim < r.box.hi.get fromDim := by
      intro r hr
      have hfit' := hfit r hr
      constructor
      · intro h
        have h' : ∀ k, k < d.toNat → (if k = toDim then r.box.lo.get fromDim else space.lo.get k) ≤ p.get k ∧
            p.get k < (if k = toDim then r.box.hi.get fromDim else space.hi.get k) := by
          intro k hk
          have := h k hk
          simp only at this
          rwa [Idx.get_set _ _ _ _ (by omega) (by omega), Idx.get_set _ _ _ _ (by omega) (by omega)] at this
        refine ⟨fun k hk => ?_, ?_⟩
        · have := h' k hk
          split at this
          · subst k; omega
          · exact this
        · have := h' toDim ht; simpa using this
      · rintro ⟨h1, h2⟩ k hk
        simp only
        rw [Idx.get_set _ _ _ _ (by omega) (by omega), Idx.get_set _ _ _ _ (by omega) (by omega)]
        have := h1 k hk
        split
        · subst k; exact h2
        · exact this
    constructor
    · rintro ⟨r, hr, h1, h2, h3⟩
      obtain ⟨c, hc, rfl⟩ := List.mem_map.1 hr
      obtain ⟨o, ho, rfl⟩ := List.mem_map.1 hc
      have := (hmem o ho).1 h3
      exact ⟨this.1, o, ho, h1, h2, this.2⟩
    · rintro ⟨hp, o, ho, h1, h2, h3⟩
      exact ⟨_, List.mem_map_of_mem (List.mem_map_of_mem ho), h1, h2, (hmem o ho).2 ⟨hp, h3⟩⟩

/-- If a non-empty copied range does not fit into the space, it aborts. -/
theorem C10_copy_abort :
    ∃ cs, copyCalls .d2 ⟨⟨0,0,0⟩,⟨4,4,0⟩⟩ .d1 0 1 [⟨0, 0, ⟨⟨2,0,0⟩,⟨6,0,0⟩⟩, 0⟩] = some cs ∧
      runAppends .d2 ⟨⟨0,0,0⟩,⟨4,4,0⟩⟩ 1 none cs = none := ⟨_, rfl, by decide⟩

example : ∃ cs l, copyCalls .d2 ⟨⟨0,0,0⟩,⟨4,8,0⟩⟩ .d1 0 1 [⟨0, 3, ⟨⟨2,0,0⟩,⟨6,0,0⟩⟩, 0⟩] = some cs ∧
    runAppends .d2 ⟨⟨0,0,0⟩,⟨4,8,0⟩⟩ 1 none cs = some l ∧ l = [⟨0, 3, ⟨⟨0,2,0⟩,⟨4,6,0⟩⟩, 0⟩] :=
  ⟨_, _, rfl, rfl, by decide⟩

/-! ## C15 -/

theorem cornerBox_get (d : Dims) (sp b : Box) (depth : Int) (k : Nat) (hk : k < d.toNat) :
    (cornerBox d sp b depth).lo.get k = max (sp.lo.get k) (b.lo.get k - depth) ∧
    (cornerBox d sp b depth).hi.get k = min (sp.hi.get k) (b.hi.get k + depth) := by
  have e1 : ∀ s f : Int, haloLo s f depth = max s (f - depth) := by
    intro s f; unfold haloLo; split <;> omega
  have e2 : ∀ s f : Int, haloHi s f depth = min s (f + depth) := by
    intro s f; unfold haloHi; split <;> omega
  cases d
  · have : k = 0 := by simp at hk; exact hk
    subst this; simp [cornerBox, e1, e2, Idx.get]
  · have : k = 0 ∨ k = 1 := by simp at hk; omega
    rcases this with rfl | rfl <;> simp [cornerBox, e1, e2, Idx.get]
  · have : k = 0 ∨ k = 1 ∨ k = 2 := by simp at hk; omega
    rcases this with rfl | rfl | rfl <;> simp [cornerBox, e1, e2, Idx.get]

/-- Corner halo: never aborts; each process owns exactly the indexes of the
space which in every dimension are at most `depth` away from one of its base
ranges (same range for all dimensions). -/
theorem C15_corner_halo (d : Dims) (sp : Box) (depth : Int) (n : Nat) (other : List TR)
    (hn : ∀ t ∈ other, t.task < n) :
    ∃ l, runAppends d sp n none (cornerHaloCalls d sp depth other) = some l ∧
      ∀ t g p, OwnsTag d l t g p ↔ Mem d sp p ∧ ∃ r ∈ other, r.task = t ∧ r.tag = g ∧
        ∀ k, k < d.toNat → r.box.lo.get k - depth ≤ p.get k ∧ p.get k < r.box.hi.get k + depth := by
  have hmem : ∀ b p, Mem d (cornerBox d sp b depth) p ↔ Mem d sp p ∧
      ∀ k, k < d.toNat → b.lo.get k - depth ≤ p.get k ∧ p.get k < b.hi.get k + depth := by
    intro b p
    constructor
    · intro h
      refine ⟨fun k hk => ?_, fun k hk => ?_⟩ <;>
      · have := h k hk
        rw [(cornerBox_get d sp b depth k hk).1, (cornerBox_get d sp b depth k hk).2] at this
        omega
    · rintro ⟨h1, h2⟩ k hk
      rw [(cornerBox_get d sp b depth k hk).1, (cornerBox_get d sp b depth k hk).2]
      have := h1 k hk; have := h2 k hk; omega
  refine ⟨_, runAppends_none d sp n _ ?_, ?_⟩
  · intro c hc
    obtain ⟨r, hr, rfl⟩ := List.mem_map.1 hc
    refine ⟨hn r hr, ?_⟩
    rw [within_iff_dims]
    intro k hk _
    rw [(cornerBox_get d sp r.box depth k hk).1, (cornerBox_get d sp r.box depth k hk).2]
    omega
  · intro t g p
    constructor
    · rintro ⟨r, hr, h1, h2, h3⟩
      obtain ⟨c, hc, rfl⟩ := List.mem_map.1 hr
      obtain ⟨o, ho, rfl⟩ := List.mem_map.1 hc
      have := (hmem o.box p).1 h3
      exact ⟨this.1, o, ho, h1, h2, this.2⟩
    · rintro ⟨hp, o, ho, h1, h2, h3⟩
      exact ⟨_, List.mem_map_of_mem (List.mem_map_of_mem ho), h1, h2, (hmem o.box p).2 ⟨hp, h3⟩⟩

theorem haloDim_mem (d : Dims) (sp b : Box) (depth : Int) (k : Nat) (hk : k < d.toNat)
    (x : Box) : x ∈ haloDim sp b depth k ↔
      (b.lo.get k > sp.lo.get k + depth ∧ x = ⟨b.lo.set k (b.lo.get k - depth), b.hi.set k (b.lo.get k)⟩) ∨
      (b.hi.get k < sp.hi.get k - depth ∧ x = ⟨b.lo.set k (b.hi.get k), b.hi.set k (b.hi.get k + depth)⟩) := by
  unfold haloDim
  rw [List.mem_append]
  constructor
  · rintro (h | h)
    · split at h
      · left; exact ⟨by assumption, by simpa using h⟩
      · cases h
    · split at h
      · right; exact ⟨by assumption, by simpa using h⟩
      · cases h
  · rintro (⟨h, rfl⟩ | ⟨h, rfl⟩)
    · left; rw [if_pos h]; simp
    · right; rw [if_pos h]; simp

theorem mem_setBoth (d : Dims) (b : Box) (k : Nat) (hk : k < d.toNat) (u v : Int) (p : Idx) :
    Mem d ⟨b.lo.set k u, b.hi.set k v⟩ p ↔
      (∀ j, j < d.toNat → j ≠ k → b.lo.get j ≤ p.get j ∧ p.get j < b.hi.get j) ∧
      u ≤ p.get k ∧ p.get k < v := by
  have h3 := d.toNat_le
  constructor
  · intro h
    refine ⟨fun j hj hne => ?_, ?_⟩
    · have := h j hj
      simp only at this
      rwa [Idx.get_set _ _ _ _ (by omega) (by omega), Idx.get_set _ _ _ _ (by omega) (by omega),
        if_neg hne, if_neg hne] at this
    · have := h k hk
      simp only at this
      rwa [Idx.get_set _ _ _ _ (by omega) (by omega), Idx.get_set _ _ _ _ (by omega) (by omega),
        if_pos rfl, if_pos rfl] at this
  · rintro ⟨h1, h2⟩ j hj
    simp only
    rw [Idx.get_set _ _ _ _ (by omega) (by omega), Idx.get_set _ _ _ _ (by omega) (by omega)]
    by_cases e : j = k
    · rw [if_pos e, if_pos e]; subst e; exact h2
    · rw [if_neg e, if_neg e]; exact h1 j hj e

/-- Specification of the (axis direction) halo: `p` is in the base range, or in
exactly one dimension at most `depth` outside of it. -/
def AxisHalo (d : Dims) (b : Box) (depth : Int) (p : Idx) : Prop :=
  Mem d b p ∨ ∃ k, k < d.toNat ∧
    (∀ j, j < d.toNat → j ≠ k → b.lo.get j ≤ p.get j ∧ p.get j < b.hi.get j) ∧
    ((b.lo.get k - depth ≤ p.get k ∧ p.get k < b.lo.get k) ∨
     (b.hi.get k ≤ p.get k ∧ p.get k < b.hi.get k + depth))

/-- Halo, partial: for base ranges with positive tags in the space which in each
dimension either touch the border of the space or are more than `depth` away
from it, each process owns exactly the axis halo of its base ranges restricted
to the space, and all ranges lie in the space.  (False for other distances and
for tag 0, see the witnesses below.) -/
theorem C15_halo_partial (d : Dims) (sp : Box) (depth : Int) (hdep : 0 ≤ depth) (n : Nat)
    (other : List TR) (hn : ∀ t ∈ other, t.task < n) (htag : ∀ t ∈ other, t.tag > 0)
    (hdist : ∀ t ∈ other, ∀ k, k < d.toNat →
      (t.box.lo.get k = sp.lo.get k ∨ t.box.lo.get k > sp.lo.get k + depth) ∧
      (t.box.hi.get k = sp.hi.get k ∨ t.box.hi.get k < sp.hi.get k - depth) ∧
      t.box.lo.get k ≤ t.box.hi.get k) :
    ∃ cs l, haloCalls d sp depth other = some cs ∧ runAppends d sp n none cs = some l ∧
      ∀ t g p, OwnsTag d l t g p ↔ Mem d sp p ∧ ∃ r ∈ other, r.task = t ∧ r.tag = g ∧
        AxisHalo d r.box depth p := by
  have hmap : other.mapM (haloOne d sp depth) = some (other.map (fun t =>
      (t.box :: (List.range d.toNat).flatMap (haloDim sp t.box depth)).map
        (fun b => (⟨t.task, b, t.tag⟩ : Call)))) := by
    clear hn hdist
    induction other with
    | nil => rfl
    | cons t ts ih =>
      have h1 : haloOne d sp depth t = some _ := if_pos (htag t (by simp))
      simp [List.mapM_cons, h1, ih (fun t ht => htag t (by simp [ht]))]
  have hd3 := d.toNat_le
  have hin : ∀ r ∈ other, ∀ b ∈ (r.box :: (List.range d.toNat).flatMap (haloDim sp r.box depth)),
      ∀ p, Mem d b p → Mem d sp p := by
    intro r hr b hb p hp
    rw [List.mem_cons] at hb
    rcases hb with rfl | hb
    · intro k hk
      have := hp k hk; have := hdist r hr k hk; omega
    · rw [List.mem_flatMap] at hb
      obtain ⟨k, hk, hb⟩ := hb
      rw [List.mem_range] at hk
      rw [haloDim_mem d sp r.box depth k hk] at hb
      rcases hb with ⟨h1, rfl⟩ | ⟨h1, rfl⟩ <;>
      · rw [mem_setBoth d r.box k hk] at hp
        intro j hj
        have hj' := hdist r hr j hj
        by_cases e : j = k
        · subst e; omega
        · have := hp.1 j hj e; omega
  refine ⟨_, _, by unfold haloCalls; rw [hmap]; rfl, runAppends_none d sp n _ ?_, ?_⟩
  · intro c hc
    rw [List.mem_flatten] at hc
    obtain ⟨cs, hcs, hc⟩ := hc
    obtain ⟨r, hr, rfl⟩ := List.mem_map.1 hcs
    obtain ⟨b, hb, rfl⟩ := List.mem_map.1 hc
    refine ⟨hn r hr, ?_⟩
    rw [within_iff_dims]
    intro k hk hlt
    simp only at hlt ⊢
    rw [List.mem_cons] at hb
    rcases hb with rfl | hb
    · have := hdist r hr k hk; omega
    · rw [List.mem_flatMap] at hb
      obtain ⟨j, hj, hb⟩ := hb
      rw [List.mem_range] at hj
      rw [haloDim_mem d sp r.box depth j hj] at hb
      have := hdist r hr k hk
      rcases hb with ⟨h1, rfl⟩ | ⟨h1, rfl⟩ <;>
      · simp only at hlt ⊢
        rw [Idx.get_set _ _ _ _ (by omega) (by omega), Idx.get_set _ _ _ _ (by omega) (by omega)] at hlt ⊢
        by_cases e : k = j
        · subst e; simp at hlt ⊢; omega
        · rw [if_neg e, if_neg e]; omega
  · intro t g p
    constructor
    · rintro ⟨r, hr, h1, h2, h3⟩
      obtain ⟨c, hc, rfl⟩ := List.mem_map.1 hr
      rw [List.mem_flatten] at hc
      obtain ⟨cs, hcs, hc⟩ := hc
      obtain ⟨o, ho, rfl⟩ := List.mem_map.1 hcs
      obtain ⟨b, hb, rfl⟩ := List.mem_map.1 hc
      refine ⟨hin o ho b hb p h3, o, ho, h1, h2, ?_⟩
      rw [List.mem_cons] at hb
      rcases hb with rfl | hb
      · exact Or.inl h3
      · rw [List.mem_flatMap] at hb
        obtain ⟨k, hk, hb⟩ := hb
        rw [List.mem_range] at hk
        rw [haloDim_mem d sp o.box depth k hk] at hb
        rcases hb with ⟨_, rfl⟩ | ⟨_, rfl⟩ <;>
        · simp only [Call.tr] at h3
          rw [mem_setBoth d o.box k hk] at h3
          exact Or.inr ⟨k, hk, h3.1, by omega⟩
    · rintro ⟨hp, o, ho, h1, h2, h3⟩
      have key : ∃ b ∈ (o.box :: (List.range d.toNat).flatMap (haloDim sp o.box depth)), Mem d b p := by
        rcases h3 with h3 | ⟨k, hk, h4, h5⟩
        · exact ⟨_, List.mem_cons_self, h3⟩
        · have hd' := hdist o ho k hk
          have hpk := hp k hk
          rcases h5 with h5 | h5
          · refine ⟨⟨o.box.lo.set k (o.box.lo.get k - depth), o.box.hi.set k (o.box.lo.get k)⟩,
              List.mem_cons_of_mem _ (List.mem_flatMap.2 ⟨k, List.mem_range.2 hk, ?_⟩),
              (mem_setBoth d o.box k hk _ _ p).2 ⟨h4, h5⟩⟩
            rw [haloDim_mem d sp o.box depth k hk]
            left; exact ⟨by omega, rfl⟩
          · refine ⟨⟨o.box.lo.set k (o.box.hi.get k), o.box.hi.set k (o.box.hi.get k + depth)⟩,
              List.mem_cons_of_mem _ (List.mem_flatMap.2 ⟨k, List.mem_range.2 hk, ?_⟩),
              (mem_setBoth d o.box k hk _ _ p).2 ⟨h4, h5⟩⟩
            rw [haloDim_mem d sp o.box depth k hk]
            right; exact ⟨by omega, rfl⟩
      obtain ⟨b, hb, hm⟩ := key
      exact ⟨_, List.mem_map_of_mem (List.mem_flatten.2 ⟨_, List.mem_map_of_mem ho,
        List.mem_map_of_mem hb⟩), h1, h2, hm⟩

/-- Violation: if the halo exactly reaches the border of the space, it is
omitted: base range [1;5[ in [0;10[ with depth 1 does not get index 0. -/
theorem C15_halo_missing_at_border :
    ∃ cs l, haloCalls .d1 ⟨⟨0,0,0⟩,⟨10,0,0⟩⟩ 1 [⟨0, 1, ⟨⟨1,0,0⟩,⟨5,0,0⟩⟩, 0⟩] = some cs ∧
      runAppends .d1 ⟨⟨0,0,0⟩,⟨10,0,0⟩⟩ 1 none cs = some l ∧
      (∀ r ∈ l, ¬ Mem .d1 r.box ⟨0,0,0⟩) ∧ Mem .d1 ⟨⟨0,0,0⟩,⟨10,0,0⟩⟩ ⟨0,0,0⟩ ∧
      AxisHalo .d1 ⟨⟨1,0,0⟩,⟨5,0,0⟩⟩ 1 ⟨0,0,0⟩ := by
  refine ⟨_, _, rfl, rfl, by decide, by decide, Or.inr ⟨0, by decide, ?_, by decide⟩⟩
  intro j hj hne
  simp at hj; omega

/-- Violation: base ranges with tag 0 (as produced by the block, all, master and
reassign partitioners) abort the halo partitioner. -/
theorem C15_halo_tag_zero_aborts (d : Dims) (sp : Box) (depth : Int) (t : TR) (ts : List TR)
    (h : t.tag = 0) : haloCalls d sp depth (t :: ts) = none := by
  have : haloOne d sp depth t = none := by simp [haloOne, h]
  simp [haloCalls, List.mapM_cons, this]

example : haloCalls .d2 ⟨⟨0,0,0⟩,⟨8,8,0⟩⟩ 1 [⟨0, 1, ⟨⟨0,0,0⟩,⟨4,4,0⟩⟩, 0⟩] =
    some [⟨0, ⟨⟨0,0,0⟩,⟨4,4,0⟩⟩, 1⟩, ⟨0, ⟨⟨4,0,0⟩,⟨5,4,0⟩⟩, 1⟩, ⟨0, ⟨⟨0,4,0⟩,⟨4,5,0⟩⟩, 1⟩] := by decide
example : cornerBox .d2 ⟨⟨0,0,0⟩,⟨8,8,0⟩⟩ ⟨⟨1,2,0⟩,⟨4,4,0⟩⟩ 1 = ⟨⟨0,1,0⟩,⟨5,5,0⟩⟩ := by decide

end Laik
