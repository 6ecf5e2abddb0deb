import Verif.Model.FormCheckLemmas
import Verif.Props.Partitioner
/-!
# C47: checks on the shape of partitionings
-/

namespace Laik

/-- Specification: ranges of process `t`. -/
def boxesOf (l : List TR) (t : Nat) : List Box := (l.filter (fun r => r.task = t)).map TR.box

theorem boxesOf_perm {a b : List TR} (h : (a.map TR.key).Perm (b.map TR.key)) (t : Nat) :
    (boxesOf a t).Perm (boxesOf b t) := by
  have e : ∀ l : List TR, boxesOf l t = ((l.map TR.key).filter (fun k => k.1 = t)).map (fun k => k.2.2) := by
    intro l
    unfold boxesOf
    rw [List.filter_map, List.map_map]
    rfl
  rw [e, e]
  exact (h.filter _).map _

/-! ## isAll -/

/-- `isAll` holds iff every process has exactly one range, which has the borders
of the space (all formats of range lists). -/
theorem C47_all (d : Dims) (space : Box) (n : Nat) (l : RangeList) (h : FrozenList d n l) :
    l.isAll d space = true ↔ ∀ t, t < n → ∃ b, boxesOf l.tr t = [b] ∧ SameBox d b space := by
  obtain ⟨gs, hg, hn⟩ := h.grouped
  rw [hg.isAll_iff, hn]
  unfold boxesOf
  constructor
  · intro ha t ht
    obtain ⟨r, h1, h2⟩ := ha t ht
    exact ⟨r.box, by rw [h1]; rfl, h2⟩
  · intro ha t ht
    obtain ⟨b, h1, h2⟩ := ha t ht
    obtain ⟨r, h3, rfl⟩ := List.map_eq_singleton_iff.1 h1
    exact ⟨r, h3, h2⟩

/-- In terms of the ranges given by the partitioner: `isAll` holds iff each process
was given exactly one range, the space. -/
theorem C47_all_appended (d : Dims) (space : Box) (n : Nat) (appended sorted : List TR)
    (hsort : IsSortOf sorted appended) (hlt : ∀ t ∈ appended, t.task < n) :
    ∃ l, freeze d n false sorted = some l ∧
      (l.isAll d space = true ↔ ∀ t, t < n → ∃ b, boxesOf appended t = [b] ∧ SameBox d b space) := by
  obtain ⟨l, hl, _, hperm⟩ := C06_freeze_keeps_entries d n appended sorted hsort hlt
  refine ⟨l, hl, ?_⟩
  rw [C47_all d space n l (.gen false sorted l hsort.2 (fun t ht => hlt t (hsort.1.mem_iff.1 ht)) hl)]
  constructor
  · intro h t ht
    obtain ⟨b, h1, h2⟩ := h t ht
    have := boxesOf_perm hperm t
    rw [h1] at this
    exact ⟨b, List.perm_singleton.1 this.symm, h2⟩
  · intro h t ht
    obtain ⟨b, h1, h2⟩ := h t ht
    have := boxesOf_perm hperm t
    rw [h1] at this
    exact ⟨b, List.perm_singleton.1 this, h2⟩

/-- A positive answer means that every process owns every index of the space and
no other. -/
theorem C47_all_owns (d : Dims) (space : Box) (n : Nat) (l : RangeList) (h : FrozenList d n l)
    (ha : l.isAll d space = true) (t : Nat) (ht : t < n) (p : Idx) : Owns d l.tr t p ↔ Mem d space p := by
  obtain ⟨b, h1, h2⟩ := (C47_all d space n l h).1 ha t ht
  obtain ⟨r, h3, rfl⟩ := List.map_eq_singleton_iff.1 h1
  have hr : ∀ q, (q ∈ l.tr ∧ q.task = t) ↔ q = r := by
    intro q
    have : q ∈ l.tr.filter (fun r => r.task = t) ↔ q = r := by rw [h3]; simp
    simpa using this
  unfold Owns
  constructor
  · rintro ⟨q, hq, hqt, hm⟩
    rw [(hr q).1 ⟨hq, hqt⟩] at hm
    exact (h2.mem p).1 hm
  · intro hm
    have := (hr r).2 rfl
    exact ⟨r, this.1, this.2, (h2.mem p).2 hm⟩

/-- The result of the `All` partitioner is recognized. -/
theorem C47_all_partitioner (d : Dims) (space : Box) (n : Nat) :
    ∃ a, runAppends d space n none (allCalls space n) = some a ∧ ∀ sorted, IsSortOf sorted a →
      ∃ l, freeze d n false sorted = some l ∧ l.isAll d space = true := by
  obtain ⟨a, ha, ho, hb⟩ := C10_all d space n
  refine ⟨a, ha, ?_⟩
  intro sorted hs
  have hlt : ∀ t ∈ a, t.task < n := by
    intro t ht
    by_contra hcon
    rw [runAppends_none d space n _ ?_] at ha
    · simp only [Option.some.injEq] at ha
      rw [← ha] at ht
      simp only [allCalls, List.mem_map, List.mem_range] at ht
      obtain ⟨c, ⟨u, hu, rfl⟩, rfl⟩ := ht
      exact hcon hu
    · intro c hc
      simp only [allCalls, List.mem_map, List.mem_range] at hc
      obtain ⟨t, ht, rfl⟩ := hc
      exact ⟨ht, within_self d space⟩
  obtain ⟨l, hl, hi⟩ := C47_all_appended d space n a sorted hs hlt
  exact ⟨l, hl, hi.2 (fun t ht => ⟨space, hb t ht, fun _ _ => ⟨rfl, rfl⟩⟩)⟩

/-- In single-index format a negative answer means that some process does not own
exactly the space (so `isAll` is exact there). -/
theorem C47_all_single_index (space : Box) (n : Nat) (appended sorted : List (Nat × Int))
    (hperm : sorted.Perm appended) (hs : sorted.Pairwise siLe) (hlt : ∀ a ∈ appended, a.1 < n)
    (hne : appended ≠ []) (hsp : space.lo.x < space.hi.x) :
    ∃ l, freezeSI n sorted = some l ∧
      (l.isAll .d1 space = true ↔
        ∀ t, t < n → ∀ i, (t, i) ∈ appended ↔ space.lo.x ≤ i ∧ i < space.hi.x) := by
  obtain ⟨l, hl, _, hown, hsep, hnon⟩ := C06_freeze_single_index n appended sorted hperm hs hlt hne
  have hfz : FrozenList .d1 n l := .si sorted l hs (fun a ha => hlt a (hperm.mem_iff.1 ha)) hl
  refine ⟨l, hl, ?_⟩
  constructor
  · intro ha t ht i
    have := hown t ⟨i, 0, 0⟩
    rw [← this, C47_all_owns .d1 space n l hfz ha t ht, mem_d1]
  · intro ha
    rw [C47_all _ _ _ _ hfz]
    intro t ht
    -- all ranges of the process
    have hmem : ∀ i, (∃ r ∈ l.tr.filter (fun r => r.task = t), r.box.lo.x ≤ i ∧ i < r.box.hi.x) ↔
        space.lo.x ≤ i ∧ i < space.hi.x := by
      intro i
      rw [← ha t ht i, ← hown t ⟨i, 0, 0⟩]
      unfold Owns
      constructor
      · rintro ⟨r, hr, h⟩
        simp at hr
        exact ⟨r, hr.1, hr.2, by rw [mem_d1]; exact h⟩
      · rintro ⟨r, hr, hrt, h⟩
        rw [mem_d1] at h
        exact ⟨r, by simp [hr, hrt], h⟩
    have hpw : (l.tr.filter (fun r => r.task = t)).Pairwise (fun a b => a.box.hi.x < b.box.lo.x) := by
      have h1 := hsep.filter (fun r => decide (r.task = t))
      refine h1.imp_of_mem ?_
      intro a b ha hb h
      simp at ha hb
      exact h (by rw [ha.2, hb.2])
    have hn2 : ∀ r ∈ l.tr.filter (fun r => r.task = t), r.box.lo.x < r.box.hi.x := by
      intro r hr; simp at hr; exact hnon r hr.1
    unfold boxesOf
    rcases hfl : l.tr.filter (fun r => r.task = t) with _ | ⟨r, _ | ⟨q, qs⟩⟩
    · rw [hfl] at hmem
      have := (hmem space.lo.x).2 ⟨by omega, hsp⟩
      simp at this
    · refine ⟨r.box, by rw [hfl]; rfl, ?_⟩
      rw [hfl] at hmem hn2
      have hm : ∀ i, (r.box.lo.x ≤ i ∧ i < r.box.hi.x) ↔ space.lo.x ≤ i ∧ i < space.hi.x := by
        intro i; rw [← hmem i]; simp
      have hr := hn2 r (by simp)
      have a1 := (hm space.lo.x).2 ⟨by omega, hsp⟩
      have a2 := (hm r.box.lo.x).1 ⟨by omega, hr⟩
      have a3 := (hm (space.hi.x - 1)).2 ⟨by omega, by omega⟩
      have a4 := (hm (r.box.hi.x - 1)).1 ⟨by omega, by omega⟩
      intro k hk
      have hk0 : k = 0 := by simp [Dims.toNat] at hk; exact hk
      subst hk0
      simp [Idx.get]
      omega
    · exfalso
      rw [hfl] at hmem hpw hn2
      have h1 := hn2 r (by simp)
      have h2 := hn2 q (by simp)
      rw [List.pairwise_cons] at hpw
      have h3 := hpw.1 q (by simp)
      have h4 := (hmem r.box.lo.x).1 ⟨r, by simp, by omega, h1⟩
      have h5 := (hmem q.box.lo.x).1 ⟨q, by simp, by omega, h2⟩
      obtain ⟨s, hs, hs1, hs2⟩ := (hmem r.box.hi.x).2 ⟨by omega, by omega⟩
      rcases List.mem_cons.1 hs with rfl | hs
      · omega
      · have hx := hpw.1 s hs
        omega

/-- Otherwise `isAll` can be false although every process owns the full space: two
ranges per process (here different tags, so different mappings). -/
theorem C47_all_incomplete :
    ∃ l, freeze .d1 2 true [⟨0, 1, ⟨⟨0,0,0⟩,⟨4,0,0⟩⟩, 0⟩, ⟨0, 2, ⟨⟨4,0,0⟩,⟨8,0,0⟩⟩, 0⟩,
        ⟨1, 1, ⟨⟨0,0,0⟩,⟨8,0,0⟩⟩, 0⟩] = some l ∧
      l.isAll .d1 ⟨⟨0,0,0⟩,⟨8,0,0⟩⟩ = false ∧
      (∀ t, t < 2 → ∀ p, Owns .d1 l.tr t p ↔ Mem .d1 ⟨⟨0,0,0⟩,⟨8,0,0⟩⟩ p) := by
  refine ⟨_, rfl, by decide, ?_⟩
  intro t ht p
  have : t = 0 ∨ t = 1 := by omega
  rcases this with rfl | rfl <;> simp [Owns, mem_d1] <;> omega

/-! ## isSingle -/

/-- `isSingle` answers `r` iff there is exactly one range, with the borders of the
space, and it is owned by `r`. -/
theorem C47_single (d : Dims) (space : Box) (n : Nat) (appended sorted : List TR)
    (hsort : IsSortOf sorted appended) (hlt : ∀ t ∈ appended, t.task < n) (r : Nat) :
    ∃ l, freeze d n false sorted = some l ∧
      (l.isSingle d space = some r ↔ ∃ t, appended = [t] ∧ t.task = r ∧ SameBox d t.box space) := by
  obtain ⟨l, hl, _, hperm⟩ := C06_freeze_keeps_entries d n appended sorted hsort hlt
  refine ⟨l, hl, ?_⟩
  rw [isSingle_iff]
  constructor
  · rintro ⟨t, ht, h1, h2⟩
    rw [ht] at hperm
    obtain ⟨u, hu, hk⟩ := List.map_eq_singleton_iff.1 (List.perm_singleton.1 hperm.symm)
    simp only [TR.key, Prod.mk.injEq] at hk
    exact ⟨u, hu, by rw [hk.1]; exact h1, by rw [hk.2.2]; exact h2⟩
  · rintro ⟨t, rfl, h1, h2⟩
    obtain ⟨u, hu, hk⟩ := List.map_eq_singleton_iff.1 (List.perm_singleton.1 hperm)
    simp only [TR.key, Prod.mk.injEq] at hk
    exact ⟨u, hu, by rw [hk.1]; exact h1, by rw [hk.2.2]; exact h2⟩

/-- Then this process owns every index, and no other process owns any. -/
theorem C47_single_owns (d : Dims) (space : Box) (l : RangeList) (r : Nat)
    (h : l.isSingle d space = some r) (t : Nat) (p : Idx) : Owns d l.tr t p ↔ t = r ∧ Mem d space p := by
  obtain ⟨u, hu, h1, h2⟩ := (isSingle_iff l d space r).1 h
  unfold Owns
  rw [hu]
  simp only [List.mem_singleton, exists_eq_left, h1, h2.mem p]
  constructor <;> rintro ⟨e, hm⟩ <;> exact ⟨e.symm, hm⟩

/-- The result of the `Master` partitioner is recognized, as process 0. -/
theorem C47_master_partitioner (d : Dims) (space : Box) (n : Nat) (hn : 0 < n) :
    ∃ a, runAppends d space n none (masterCalls space) = some a ∧ ∀ sorted, IsSortOf sorted a →
      ∃ l, freeze d n false sorted = some l ∧ l.isSingle d space = some 0 := by
  have hr := runAppends_none d space n (masterCalls space) (by simp [masterCalls, hn, within_self])
  refine ⟨_, hr, ?_⟩
  intro sorted hs
  obtain ⟨l, hl, hi⟩ := C47_single d space n _ sorted hs (by simp [masterCalls, Call.tr, hn]) 0
  exact ⟨l, hl, hi.2 ⟨_, rfl, rfl, fun _ _ => ⟨rfl, rfl⟩⟩⟩

/-! ## isEqual -/

/-- Comparing two partitionings never fails the assert on owners; it is positive
iff both have the same number of processes, the same space and each process has
the same ranges in the same order. -/
theorem C47_equal (d : Dims) (same : Bool) (n m : Nat) (a b : RangeList) (ha : FrozenList d n a)
    (hb : FrozenList d m b) :
    ∃ r, a.isEqual d same b = some r ∧
      (r = true ↔ n = m ∧ same = true ∧ ∀ t, t < n → SameBoxes d (boxesOf a.tr t) (boxesOf b.tr t)) := by
  obtain ⟨gs, hg, hn⟩ := ha.grouped
  obtain ⟨hs, hh, hm⟩ := hb.grouped
  obtain ⟨r, h1, h2⟩ := hg.isEqual_iff hh d same
  rw [hn, hm] at h2
  exact ⟨r, h1, h2⟩

theorem SameBoxes.mem {d : Dims} {a b : List Box} (h : SameBoxes d a b) (p : Idx) :
    (∃ x ∈ a, Mem d x p) ↔ ∃ x ∈ b, Mem d x p := by
  induction h with
  | nil => simp
  | cons h _ ih => simp only [List.mem_cons, exists_eq_or_imp, h.mem p, ih]

theorem owns_boxesOf (d : Dims) (l : List TR) (t : Nat) (p : Idx) :
    Owns d l t p ↔ ∃ x ∈ boxesOf l t, Mem d x p := by
  unfold Owns boxesOf
  simp only [List.mem_map, List.mem_filter, decide_eq_true_eq]
  constructor
  · rintro ⟨r, h1, h2, h3⟩; exact ⟨_, ⟨r, ⟨h1, h2⟩, rfl⟩, h3⟩
  · rintro ⟨_, ⟨r, ⟨h1, h2⟩, rfl⟩, h3⟩; exact ⟨r, h1, h2, h3⟩

theorem frozen_task_lt {d : Dims} {n : Nat} {l : RangeList} (h : FrozenList d n l) : ∀ t ∈ l.tr, t.task < n := by
  obtain ⟨gs, hg, hn⟩ := h.grouped
  intro t ht
  rw [hg.tr, List.mem_flatten] at ht
  obtain ⟨g, hg1, ht⟩ := ht
  obtain ⟨k, hk, rfl⟩ := List.mem_iff_getElem.1 hg1
  have := hg.own k hk t ht
  have := hg.count
  omega

/-- Equal partitionings give every process the same indexes. -/
theorem C47_equal_owns (d : Dims) (same : Bool) (n m : Nat) (a b : RangeList) (ha : FrozenList d n a)
    (hb : FrozenList d m b) (h : a.isEqual d same b = some true) (t : Nat) (p : Idx) :
    Owns d a.tr t p ↔ Owns d b.tr t p := by
  obtain ⟨r, h1, h2⟩ := C47_equal d same n m a b ha hb
  rw [h] at h1
  simp only [Option.some.injEq] at h1
  obtain ⟨hnm, _, hs⟩ := h2.1 h1.symm
  by_cases ht : t < n
  · rw [owns_boxesOf, owns_boxesOf]
    exact (hs t ht).mem p
  · constructor
    · rintro ⟨r, hr, hrt, _⟩
      exact absurd (frozen_task_lt ha r hr) (by omega)
    · rintro ⟨r, hr, hrt, _⟩
      exact absurd (frozen_task_lt hb r hr) (by omega)

theorem SameBox.symm {d : Dims} {a b : Box} (h : SameBox d a b) : SameBox d b a :=
  fun k hk => ⟨(h k hk).1.symm, (h k hk).2.symm⟩

theorem SameBoxes.symm {d : Dims} {a b : List Box} (h : SameBoxes d a b) : SameBoxes d b a := by
  induction h with
  | nil => exact .nil
  | cons h _ ih => exact .cons h.symm ih

theorem SameBoxes.trans {d : Dims} {a b c : List Box} (h : SameBoxes d a b) (h' : SameBoxes d b c) :
    SameBoxes d a c := by
  induction h generalizing c with
  | nil => exact h'
  | cons h _ ih =>
    cases h' with
    | cons h1 h2 => exact .cons (fun k hk => ⟨(h k hk).1.trans (h1 k hk).1, (h k hk).2.trans (h1 k hk).2⟩) (ih h2)

theorem SameBoxes.refl (d : Dims) (a : List Box) : SameBoxes d a a := by
  induction a with
  | nil => exact .nil
  | cons _ _ ih => exact .cons (fun _ _ => ⟨rfl, rfl⟩) ih

/-- The comparison is an equivalence on partitionings of one space. -/
theorem C47_equal_equivalence (d : Dims) (n m k : Nat) (a b c : RangeList) (ha : FrozenList d n a)
    (hb : FrozenList d m b) (hc : FrozenList d k c) :
    a.isEqual d true a = some true ∧ a.isEqual d true b = b.isEqual d true a ∧
      (a.isEqual d true b = some true → b.isEqual d true c = some true → a.isEqual d true c = some true) := by
  have bool : ∀ {r s : Bool}, (r = true ↔ s = true) → r = s := by decide
  refine ⟨?_, ?_, ?_⟩
  · obtain ⟨r, h1, h2⟩ := C47_equal d true n n a a ha ha
    rw [h1, h2.2 ⟨rfl, rfl, fun _ _ => SameBoxes.refl d _⟩]
  · obtain ⟨r, h1, h2⟩ := C47_equal d true n m a b ha hb
    obtain ⟨s, h3, h4⟩ := C47_equal d true m n b a hb ha
    rw [h1, h3]
    congr 1
    apply bool
    rw [h2, h4]
    constructor
    · rintro ⟨e, _, h⟩; exact ⟨e.symm, rfl, fun t ht => (h t (by omega)).symm⟩
    · rintro ⟨e, _, h⟩; exact ⟨e.symm, rfl, fun t ht => (h t (by omega)).symm⟩
  · intro hab hbc
    obtain ⟨r, h1, h2⟩ := C47_equal d true n m a b ha hb
    obtain ⟨s, h3, h4⟩ := C47_equal d true m k b c hb hc
    obtain ⟨u, h5, h6⟩ := C47_equal d true n k a c ha hc
    rw [hab] at h1
    rw [hbc] at h3
    simp only [Option.some.injEq] at h1 h3
    obtain ⟨e1, _, g1⟩ := h2.1 h1.symm
    obtain ⟨e2, _, g2⟩ := h4.1 h3.symm
    rw [h5, h6.2 ⟨by omega, rfl, fun t ht => (g1 t ht).trans (g2 t (by omega))⟩]

/-- Violation: the same ranges given in another order may compare as different:
sorting only looks at the first coordinate. -/
theorem C47_equal_order :
    ∃ a b sa sb la lb, List.Perm a b ∧ IsSortOf sa a ∧ IsSortOf sb b ∧
      freeze .d2 1 false sa = some la ∧ freeze .d2 1 false sb = some lb ∧
      la.isEqual .d2 true lb = some false := by
  refine ⟨[⟨0, 0, ⟨⟨0,0,0⟩,⟨4,2,0⟩⟩, 0⟩, ⟨0, 0, ⟨⟨0,2,0⟩,⟨4,4,0⟩⟩, 0⟩],
    [⟨0, 0, ⟨⟨0,2,0⟩,⟨4,4,0⟩⟩, 0⟩, ⟨0, 0, ⟨⟨0,0,0⟩,⟨4,2,0⟩⟩, 0⟩], _, _, _, _, List.Perm.swap _ _ _,
    ⟨List.Perm.refl _, ?_⟩, ⟨List.Perm.refl _, ?_⟩, rfl, rfl, by decide⟩ <;> simp [trLe]

/-- Violation: equal partitionings may distribute their ranges differently to
mappings, as tags are not compared. -/
theorem C47_equal_maps :
    ∃ la lb, freeze .d1 1 false [⟨0, 1, ⟨⟨0,0,0⟩,⟨4,0,0⟩⟩, 0⟩, ⟨0, 1, ⟨⟨6,0,0⟩,⟨8,0,0⟩⟩, 0⟩] = some la ∧
      freeze .d1 1 false [⟨0, 1, ⟨⟨0,0,0⟩,⟨4,0,0⟩⟩, 0⟩, ⟨0, 2, ⟨⟨6,0,0⟩,⟨8,0,0⟩⟩, 0⟩] = some lb ∧
      la.isEqual .d1 true lb = some true ∧ la.tidMapCount 0 = some 1 ∧ lb.tidMapCount 0 = some 2 :=
  ⟨_, _, rfl, rfl, by decide, by decide, by decide⟩

example : ∃ la lb, freeze .d2 2 false [⟨0, 0, ⟨⟨0,0,0⟩,⟨4,4,0⟩⟩, 0⟩, ⟨1, 0, ⟨⟨0,0,0⟩,⟨4,4,0⟩⟩, 0⟩] = some la ∧
    freeze .d2 2 false [⟨1, 0, ⟨⟨0,0,0⟩,⟨4,4,0⟩⟩, 0⟩] = some lb ∧
    la.isAll .d2 ⟨⟨0,0,0⟩,⟨4,4,0⟩⟩ = true ∧ lb.isSingle .d2 ⟨⟨0,0,0⟩,⟨4,4,0⟩⟩ = some 1 ∧
    la.isEqual .d2 true lb = some false := ⟨_, _, rfl, rfl, by decide, by decide, by decide⟩

/-! ## Reductions in 2d and 3d -/

/-- If the transition calculation for a reduction in 2d or 3d does not abort, then
all processes own the full space in the source, and the processes getting the
result are exactly those owning any index in the target; so each target owner
gets the reduction over exactly the source owners. -/
theorem C47_reduce (d : Dims) (space : Box) (n : Nat) (F T : RangeList) (hF : FrozenList d n F)
    (hT : FrozenList d n T) (out : RedOut) (h : reduceMd d space n F T = some out) (p : Idx)
    (hp : Mem d space p) :
    (∀ t, t < n → Owns d F.tr t p) ∧ (∀ t, t < n → (out.has t = true ↔ Owns d T.tr t p)) := by
  unfold reduceMd at h
  by_cases hA : F.isAll d space = true
  · rw [if_pos hA] at h
    refine ⟨fun t ht => (C47_all_owns d space n F hF hA t ht p).2 hp, ?_⟩
    intro t ht
    cases hS : T.isSingle d space with
    | none =>
      rw [hS] at h
      by_cases hTA : T.isAll d space = true
      · simp only [hTA, if_true, Option.some.injEq] at h
        subst h
        simp only [RedOut.has, true_iff]
        exact (C47_all_owns d space n T hT hTA t ht p).2 hp
      · simp only [hTA] at h
        simp at h
    | some r =>
      rw [hS] at h
      rw [C47_single_owns d space T r hS]
      simp only at h
      by_cases hn : n = 1
      · rw [if_pos hn] at h
        by_cases hr : r = 0
        · rw [if_pos hr] at h
          simp only [Option.some.injEq] at h
          subst h
          simp only [RedOut.has, true_iff]
          exact ⟨by omega, hp⟩
        · rw [if_neg hr] at h; simp at h
      · rw [if_neg hn] at h
        simp only [Option.some.injEq] at h
        subst h
        simp [RedOut.has, hp]
  · rw [if_neg hA] at h; simp at h

/-- It does not abort if the source is the result of `All` and the target of `All`
or of `Master`. -/
theorem C47_reduce_defined (d : Dims) (space : Box) (n : Nat) (F T : RangeList)
    (hF : F.isAll d space = true) (hT : T.isAll d space = true ∨ T.isSingle d space = some 0) :
    (reduceMd d space n F T).isSome = true := by
  unfold reduceMd
  rw [if_pos hF]
  rcases hT with h | h
  · cases hS : T.isSingle d space with
    | none => simp [h]
    | some r =>
      obtain ⟨u, hu, h1, _⟩ := (isSingle_iff T d space r).1 hS
      unfold RangeList.isAll at h
      rw [hu] at h
      simp only [List.length_singleton] at h
      split at h
      · simp at h
      · have := ((isAllFrom_iff d space 0 [u]).1 h 0 (by simp)).1
        simp at this
        simp only
        rw [← h1, this]
        split <;> simp
  · rw [h]
    simp only
    split <;> simp

/-- All other reductions abort, for example to a partitioning in blocks. -/
theorem C47_reduce_aborts :
    ∃ F T, freeze .d2 2 false [⟨0, 0, ⟨⟨0,0,0⟩,⟨4,4,0⟩⟩, 0⟩, ⟨1, 0, ⟨⟨0,0,0⟩,⟨4,4,0⟩⟩, 0⟩] = some F ∧
      freeze .d2 2 false [⟨0, 0, ⟨⟨0,0,0⟩,⟨2,4,0⟩⟩, 0⟩, ⟨1, 0, ⟨⟨2,0,0⟩,⟨4,4,0⟩⟩, 0⟩] = some T ∧
      reduceMd .d2 ⟨⟨0,0,0⟩,⟨4,4,0⟩⟩ 2 F T = none := ⟨_, _, rfl, rfl, by decide⟩

/-- Violation: a target owner also gets a local copy of its own input, done after
the reduction.  It keeps the result of the reduction iff its memory is shared
between source and target, or its input already is the result. -/
theorem C47_reduce_overwritten {V : Type} (d : Dims) (space : Box) (n : Nat) (F T : RangeList)
    (hF : FrozenList d n F) (hT : FrozenList d n T) (out : RedOut) (h : reduceMd d space n F T = some out)
    (p : Idx) (hp : Mem d space p) (me : Nat) (hme : me < n) (ho : Owns d T.tr me p) (shared : Bool)
    (red v old : V) :
    after2 d F.tr T.tr me out shared red v old p = red ↔ shared = true ∨ v = red := by
  obtain ⟨h1, h2⟩ := C47_reduce d space n F T hF hT out h p hp
  have hl : (local2 d F.tr T.tr me).any (fun l => decide (Mem d l.1 p)) = true := by
    obtain ⟨r, hr, hrt, hrp⟩ := h1 me hme
    obtain ⟨q, hq, hqt, hqp⟩ := ho
    rw [List.any_eq_true]
    cases hi : r.box.intersect d q.box with
    | none => exact absurd ⟨hrp, hqp⟩ (intersect_none d r.box q.box hi p)
    | some c =>
      refine ⟨(c, r.mapNo, q.mapNo), ?_, ?_⟩
      · unfold local2
        rw [List.mem_flatMap]
        refine ⟨r, mem_ownRanges.2 ⟨hr, hrt⟩, ?_⟩
        rw [List.mem_filterMap]
        exact ⟨q, mem_ownRanges.2 ⟨hq, hqt⟩, by rw [hi]; rfl⟩
      · simpa using (intersect_mem d r.box q.box c hi p).2 ⟨hrp, hqp⟩
  have ho' : out.has me = true := (h2 me hme).2 ho
  unfold after2
  simp only [hl, ho', if_true, Bool.and_true]
  cases shared <;> simp

/-- Witness: sum of 3 and 4 over two processes with separate memory for source and
target (as with a reservation for the target only): process 0 ends with 3. -/
theorem C47_reduce_lost :
    ∃ F, freeze .d2 2 false [⟨0, 0, ⟨⟨0,0,0⟩,⟨4,4,0⟩⟩, 0⟩, ⟨1, 0, ⟨⟨0,0,0⟩,⟨4,4,0⟩⟩, 0⟩] = some F ∧
      reduceMd .d2 ⟨⟨0,0,0⟩,⟨4,4,0⟩⟩ 2 F F = some none ∧
      after2 .d2 F.tr F.tr 0 none false (3 + 4) 3 0 ⟨1, 1, 0⟩ = 3 := ⟨_, rfl, by decide, by decide⟩

end Laik
