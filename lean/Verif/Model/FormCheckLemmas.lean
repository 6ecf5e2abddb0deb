import Verif.Model.FormCheck
import Verif.Spec.Form
import Verif.Props.RangeList
/-!
# Lemmas on the checks of the shape of a partitioning
-/

namespace Laik

theorem isEqual_sameBox {d : Dims} {a b : Box} : a.isEqual d b = true ↔ SameBox d a b :=
  isEqual_iff_dims d a b

theorem SameBox.mem {d : Dims} {a b : Box} (h : SameBox d a b) (p : Idx) : Mem d a p ↔ Mem d b p := by
  constructor <;> intro hp k hk <;> have := h k hk <;> have := hp k hk <;> omega

theorem isAllFrom_iff (d : Dims) (space : Box) (i : Nat) (l : List TR) :
    isAllFrom d space i l = true ↔
      ∀ k (h : k < l.length), (l[k]).task = i + k ∧ SameBox d (l[k]).box space := by
  induction l generalizing i with
  | nil => simp [isAllFrom]
  | cons t ts ih =>
    simp only [isAllFrom]
    by_cases h1 : t.task = i
    · rw [if_neg (by simp [h1])]
      by_cases h2 : t.box.isEqual d space = true
      · rw [if_neg (by simp [h2]), ih]
        constructor
        · intro h k hk
          cases k with
          | zero => exact ⟨by simpa using h1, isEqual_sameBox.1 h2⟩
          | succ k =>
            have := h k (by simpa using hk)
            simp only [List.getElem_cons_succ]
            exact ⟨by omega, this.2⟩
        · intro h k hk
          have := h (k+1) (by simpa using hk)
          simp only [List.getElem_cons_succ] at this
          exact ⟨by omega, this.2⟩
      · rw [if_pos (by simp [h2])]
        simp only [Bool.false_eq_true, false_iff]
        intro h
        have := (h 0 (by simp)).2
        exact h2 (isEqual_sameBox.2 this)
    · rw [if_pos (by simp [h1])]
      simp only [Bool.false_eq_true, false_iff]
      intro h
      have := (h 0 (by simp)).1
      simp at this
      exact h1 this

/-- The entries of a process are its group. -/
theorem filter_flatten_own (gs : List (List TR)) (m : Nat)
    (own : ∀ k (hk : k < gs.length), ∀ t ∈ gs[k], t.task = m + k) (k : Nat) (hk : k < gs.length) :
    gs.flatten.filter (fun t => t.task = m + k) = gs[k] := by
  induction gs generalizing m k with
  | nil => simp at hk
  | cons g gs ih =>
    rw [List.flatten_cons, List.filter_append]
    have hrest : ∀ j (hj : j < gs.length), ∀ t ∈ gs[j], t.task = (m + 1) + j := by
      intro j hj t ht
      have := own (j+1) (by simpa using hj) t (by simpa using ht)
      omega
    cases k with
    | zero =>
      have e1 : g.filter (fun t => t.task = m + 0) = g := by
        rw [List.filter_eq_self]
        intro t ht
        have := own 0 (by simp) t (by simpa using ht)
        simpa using this
      have e2 : gs.flatten.filter (fun t => t.task = m + 0) = [] := by
        rw [List.filter_eq_nil_iff]
        intro t ht
        rw [List.mem_flatten] at ht
        obtain ⟨g', hg', ht⟩ := ht
        obtain ⟨j, hj, rfl⟩ := List.mem_iff_getElem.1 hg'
        have := hrest j hj t ht
        simp; omega
      rw [e1, e2]; simp
    | succ k =>
      have e1 : g.filter (fun t => t.task = m + (k + 1)) = [] := by
        rw [List.filter_eq_nil_iff]
        intro t ht
        have := own 0 (by simp) t (by simpa using ht)
        simp; omega
      have e2 := ih (m + 1) hrest k (by simpa using hk)
      rw [e1, List.nil_append]
      simp only [List.getElem_cons_succ]
      rw [← e2]
      congr 1
      funext t
      congr 1
      apply propext
      constructor <;> intro h <;> omega

theorem Grouped.filter {l : RangeList} {gs : List (List TR)} (h : Grouped l gs) (k : Nat) (hk : k < gs.length) :
    l.tr.filter (fun t => t.task = k) = gs[k] := by
  have := filter_flatten_own gs 0 (by simpa using h.own) k hk
  rw [h.tr]
  simpa using this

theorem flatten_singles (l : List TR) : (l.map (fun t => [t])).flatten = l := by
  induction l with
  | nil => rfl
  | cons t l ih => simp [ih]

theorem flatten_length_ones (gs : List (List TR)) (h : ∀ g ∈ gs, g.length = 1) :
    gs.flatten.length = gs.length := by
  induction gs with
  | nil => rfl
  | cons g gs ih =>
    rw [List.flatten_cons, List.length_append, h g (by simp), ih (fun g hg => h g (by simp [hg]))]
    simp; omega

/-- A list with as many entries as processes and one entry per process in order. -/
theorem getElem_task_filter (l : List TR) (i : Nat) (h : ∀ k (hk : k < l.length), (l[k]).task = i + k)
    (k : Nat) (hk : k < l.length) : l.filter (fun t => t.task = i + k) = [l[k]] := by
  have := filter_flatten_own (l.map (fun t => [t])) i (by
    intro j hj t ht
    simp at ht
    subst ht
    exact h j (by simpa using hj)) k (by simpa using hk)
  rw [flatten_singles] at this
  rw [this]; simp

theorem Grouped.isAll_iff {l : RangeList} {gs : List (List TR)} (h : Grouped l gs) (d : Dims) (space : Box) :
    l.isAll d space = true ↔
      ∀ t, t < l.tidCount → ∃ r, l.tr.filter (fun r => r.task = t) = [r] ∧ SameBox d r.box space := by
  unfold RangeList.isAll
  by_cases hlen : l.tr.length = l.tidCount
  · rw [if_neg (by simp [hlen]), isAllFrom_iff]
    constructor
    · intro ha t ht
      refine ⟨l.tr[t]'(by omega), ?_, (ha t (by omega)).2⟩
      have := getElem_task_filter l.tr 0 (fun k hk => (ha k hk).1) t (by omega)
      simpa using this
    · intro ha
      have e : gs = l.tr.map (fun r => [r]) := by
        apply List.ext_getElem
        · rw [List.length_map, h.count, hlen]
        · intro k h1 h2
          have hk : k < l.tidCount := by rw [← h.count]; exact h1
          obtain ⟨r, hr, _⟩ := ha k hk
          rw [h.filter k h1] at hr
          have hone : ∀ g ∈ gs, g.length = 1 := by
            intro g hg
            obtain ⟨j, hj, rfl⟩ := List.mem_iff_getElem.1 hg
            obtain ⟨r, hr, _⟩ := ha j (by rw [← h.count]; exact hj)
            rw [h.filter j hj] at hr
            rw [hr]; rfl
          have hflat : ∀ (gs : List (List TR)), (∀ g ∈ gs, g.length = 1) → ∀ k (hk : k < gs.length),
              ∃ r, gs[k] = [r] ∧ gs.flatten[k]? = some r := by
            intro gs hgs
            induction gs with
            | nil => simp
            | cons g gs ih =>
              intro k hk
              obtain ⟨r, rfl⟩ := List.length_eq_one_iff.1 (hgs g (by simp))
              cases k with
              | zero => exact ⟨r, rfl, by simp⟩
              | succ k =>
                obtain ⟨q, h1, h2⟩ := ih (fun g hg => hgs g (by simp [hg])) k (by simpa using hk)
                exact ⟨q, by simpa using h1, by simpa using h2⟩
          obtain ⟨q, hq1, hq2⟩ := hflat gs hone k h1
          rw [hq1, List.getElem_map]
          rw [← h.tr, List.getElem?_eq_getElem (by omega)] at hq2
          simpa using hq2.symm
      intro k hk
      obtain ⟨r, hr, hb⟩ := ha k (by omega)
      rw [h.filter k (by rw [h.count]; omega)] at hr
      have hk' : k < gs.length := by rw [h.count]; omega
      have h2 : gs[k] = [l.tr[k]] := by
        have : gs[k]? = some [l.tr[k]] := by
          rw [e, List.getElem?_map, List.getElem?_eq_getElem hk]; rfl
        rw [List.getElem?_eq_getElem hk'] at this
        simpa using this
      rw [h2] at hr
      obtain rfl : l.tr[k] = r := by simpa using hr
      refine ⟨?_, hb⟩
      have := h.own k hk' l.tr[k] (by rw [h2]; simp)
      omega
  · rw [if_pos (by simp [hlen])]
    simp only [Bool.false_eq_true, false_iff]
    intro ha
    apply hlen
    rw [h.tr, flatten_length_ones, h.count]
    intro g hg
    obtain ⟨j, hj, rfl⟩ := List.mem_iff_getElem.1 hg
    obtain ⟨r, hr, _⟩ := ha j (by rw [← h.count]; exact hj)
    rw [h.filter j hj] at hr
    rw [hr]; rfl

theorem isSingle_iff (l : RangeList) (d : Dims) (space : Box) (r : Nat) :
    l.isSingle d space = some r ↔ ∃ t, l.tr = [t] ∧ t.task = r ∧ SameBox d t.box space := by
  unfold RangeList.isSingle
  rcases hl : l.tr with _ | ⟨t, _ | ⟨u, us⟩⟩
  · simp
  · simp only [List.cons.injEq, and_true, exists_eq_left']
    rw [← isEqual_sameBox]
    cases t.box.isEqual d space <;> simp
  · simp

/-- Tasks of the entries are determined by the number of entries of each process. -/
theorem eqLoop_iff (d : Dims) (a b : List TR) (ht : a.map TR.task = b.map TR.task) :
    ∃ r, eqLoop d a b = some r ∧ (r = true ↔ SameBoxes d (a.map TR.box) (b.map TR.box)) := by
  induction a generalizing b with
  | nil =>
    cases b with
    | nil => exact ⟨true, rfl, by simp only [List.map_nil, true_iff]; exact .nil⟩
    | cons u us => simp at ht
  | cons t ts ih =>
    cases b with
    | nil => simp at ht
    | cons u us =>
      simp only [List.map_cons, List.cons.injEq] at ht
      simp only [eqLoop]
      rw [if_neg (by simp [ht.1])]
      by_cases h2 : t.box.isEqual d u.box = true
      · rw [if_neg (by simp [h2])]
        obtain ⟨r, h, hr⟩ := ih us ht.2
        refine ⟨r, h, ?_⟩
        rw [hr]
        simp only [List.map_cons]
        constructor
        · intro h; exact .cons (isEqual_sameBox.1 h2) h
        · intro h; cases h with | cons _ h => exact h
      · rw [if_pos (by simp [h2])]
        refine ⟨false, rfl, ?_⟩
        simp only [Bool.false_eq_true, List.map_cons, false_iff]
        intro h
        cases h with | cons h _ => exact h2 (isEqual_sameBox.2 h)

theorem SameBoxes.length {d : Dims} {a b : List Box} (h : SameBoxes d a b) : a.length = b.length := by
  induction h with
  | nil => rfl
  | cons _ _ ih => simp [ih]

theorem SameBoxes.append {d : Dims} {a b a' b' : List Box} (h : SameBoxes d a b) (h' : SameBoxes d a' b') :
    SameBoxes d (a ++ a') (b ++ b') := by
  induction h with
  | nil => exact h'
  | cons h _ ih => exact .cons h ih

theorem SameBoxes.of_append {d : Dims} {a b a' b' : List Box} (hl : a.length = b.length)
    (h : SameBoxes d (a ++ a') (b ++ b')) : SameBoxes d a b ∧ SameBoxes d a' b' := by
  induction a generalizing b with
  | nil =>
    cases b with
    | nil => exact ⟨.nil, h⟩
    | cons _ _ => simp at hl
  | cons x xs ih =>
    cases b with
    | nil => simp at hl
    | cons y ys =>
      simp only [List.cons_append] at h
      cases h with
      | cons h1 h2 =>
        obtain ⟨h3, h4⟩ := ih (by simpa using hl) h2
        exact ⟨.cons h1 h3, h4⟩

theorem sameBoxes_flatten (d : Dims) (a b : List (List TR)) (hl : a.map List.length = b.map List.length) :
    SameBoxes d (a.flatten.map TR.box) (b.flatten.map TR.box) ↔
      ∀ k (h1 : k < a.length) (h2 : k < b.length), SameBoxes d ((a[k]).map TR.box) ((b[k]).map TR.box) := by
  induction a generalizing b with
  | nil =>
    cases b with
    | nil =>
      exact ⟨fun _ k h => absurd h (by simp), fun _ => SameBoxes.nil⟩
    | cons _ _ => simp at hl
  | cons x xs ih =>
    cases b with
    | nil => simp at hl
    | cons y ys =>
      simp only [List.map_cons, List.cons.injEq] at hl
      simp only [List.flatten_cons, List.map_append]
      constructor
      · intro h k h1 h2
        obtain ⟨h3, h4⟩ := SameBoxes.of_append (by simpa using hl.1) h
        cases k with
        | zero => exact h3
        | succ k => exact (ih ys hl.2).1 h4 k (by simpa using h1) (by simpa using h2)
      · intro h
        refine SameBoxes.append (h 0 (by simp) (by simp)) ((ih ys hl.2).2 ?_)
        intro k h1 h2
        exact h (k+1) (by simpa using h1) (by simpa using h2)

theorem tasks_flatten (a b : List (List TR)) (m : Nat) (hl : a.map List.length = b.map List.length)
    (ha : ∀ k (hk : k < a.length), ∀ t ∈ a[k], t.task = m + k)
    (hb : ∀ k (hk : k < b.length), ∀ t ∈ b[k], t.task = m + k) :
    a.flatten.map TR.task = b.flatten.map TR.task := by
  have key : ∀ (g : List TR) (m : Nat), (∀ t ∈ g, t.task = m) → g.map TR.task = List.replicate g.length m := by
    intro g m h
    induction g with
    | nil => rfl
    | cons t g ih =>
      simp only [List.map_cons, List.length_cons, List.replicate_succ]
      rw [h t (by simp), ih (fun t ht => h t (by simp [ht]))]
  induction a generalizing b m with
  | nil =>
    cases b with
    | nil => rfl
    | cons _ _ => simp at hl
  | cons x xs ih =>
    cases b with
    | nil => simp at hl
    | cons y ys =>
      simp only [List.map_cons, List.cons.injEq] at hl
      simp only [List.flatten_cons, List.map_append]
      rw [key x m (fun t ht => by have := ha 0 (by simp) t (by simpa using ht); omega),
        key y m (fun t ht => by have := hb 0 (by simp) t (by simpa using ht); omega), hl.1]
      rw [ih ys (m+1) hl.2 ?_ ?_]
      · intro k hk t ht
        have := ha (k+1) (by simpa using hk) t (by simpa using ht); omega
      · intro k hk t ht
        have := hb (k+1) (by simpa using hk) t (by simpa using ht); omega

/-- Equal offsets and equal total number: equal number of entries of each process. -/
theorem lengths_of_offsets (a b : List (List TR)) (o : Nat) (hl : a.length = b.length)
    (hc : a.flatten.length = b.flatten.length) :
    (∀ i, i < a.length → (offsets o a)[i]? = (offsets o b)[i]?) ↔ a.map List.length = b.map List.length := by
  induction a generalizing b o with
  | nil =>
    cases b with
    | nil => simp
    | cons _ _ => simp at hl
  | cons x xs ih =>
    cases b with
    | nil => simp at hl
    | cons y ys =>
      simp only [List.length_cons, Nat.add_right_cancel_iff] at hl
      simp only [List.flatten_cons, List.length_append] at hc
      simp only [List.map_cons, List.cons.injEq]
      constructor
      · intro h
        have hxy : x.length = y.length := by
          cases xs with
          | nil =>
            cases ys with
            | nil => simpa using hc
            | cons _ _ => simp at hl
          | cons x2 xs =>
            cases ys with
            | nil => simp at hl
            | cons y2 ys =>
              have := h 1 (by simp)
              simp [offsets] at this
              exact this
        refine ⟨hxy, (ih ys (o + x.length) hl (by omega)).1 ?_⟩
        intro i hi
        have := h (i+1) (by simpa using hi)
        simp only [offsets, List.getElem?_cons_succ] at this
        rw [this, hxy]
      · rintro ⟨h1, h2⟩ i hi
        cases i with
        | zero => simp [offsets]
        | succ i =>
          simp only [offsets, List.getElem?_cons_succ, ← h1]
          exact (ih ys (o + x.length) hl (by omega)).2 h2 i (by simpa using hi)

/-- Range lists as they result from freezing: generic format, with or without
merging, or single-index format; `n` is the number of processes. -/
inductive FrozenList (d : Dims) (n : Nat) : RangeList → Prop where
  | gen (merge : Bool) (sorted : List TR) (l : RangeList) : sorted.Pairwise trLe →
      (∀ t ∈ sorted, t.task < n) → freeze d n merge sorted = some l → FrozenList d n l
  | si (sorted : List (Nat × Int)) (l : RangeList) : sorted.Pairwise siLe →
      (∀ a ∈ sorted, a.1 < n) → freezeSI n sorted = some l → FrozenList d n l

theorem freeze_grouped {d : Dims} {n : Nat} {s : List TR} {l : RangeList} (hs : s.Pairwise trLe)
    (hlt : ∀ t ∈ s, t.task < n) (h : freeze d n false s = some l) : Grouped l (groups s 0 n) := by
  obtain ⟨off, tr, hu, hg⟩ := updateOffsets_grouped s n hs hlt
  simp [freeze, hu] at h
  rw [← h]; exact hg

theorem FrozenList.grouped {d : Dims} {n : Nat} {l : RangeList} (h : FrozenList d n l) :
    ∃ gs, Grouped l gs ∧ l.tidCount = n := by
  have cnt : ∀ {d m s l}, freeze d n m s = some l → l.tidCount = n := by
    intro d m s l h
    unfold freeze at h
    split at h; · simp at h
    split at h; · simp at h
    simp at h; rw [← h]
  cases h with
  | gen merge s _ hs hlt h =>
    cases merge with
    | false => exact ⟨_, freeze_grouped hs hlt h, cnt h⟩
    | true =>
      cases s with
      | nil => simp [freeze, mergeSorted] at h
      | cons t ts =>
        have hc := cnt h
        simp only [freeze, if_true, mergeSorted] at h
        by_cases hd : d = .d1
        · rw [if_pos hd] at h
          obtain ⟨hsep, hfrom⟩ := mergeGo_sep t ts hs
          have hlt' : ∀ r ∈ mergeGo t ts, r.task < n := by
            intro r hr
            obtain ⟨u, hu, e, _⟩ := hfrom r hr
            rw [e]; exact hlt u hu
          have h2 : freeze d n false (mergeGo t ts) = some l := by
            simp only [freeze, Bool.false_eq_true, if_false]; exact h
          exact ⟨_, freeze_grouped (hsep.imp (fun {a b} h => h.1)) hlt' h2, hc⟩
        · rw [if_neg hd] at h; simp at h
  | si s _ hs hlt h =>
    cases s with
    | nil => simp [freezeSI] at h
    | cons a rest =>
      obtain ⟨t, i⟩ := a
      obtain ⟨off, tr, hf, hg⟩ := freezeSI_grouped n t i rest hs hlt
      rw [hf] at h
      simp at h
      rw [← h]
      exact ⟨_, hg, rfl⟩

/-- Equality of two frozen lists. -/
theorem Grouped.isEqual_iff {l m : RangeList} {gs hs : List (List TR)} (h : Grouped l gs) (h' : Grouped m hs)
    (d : Dims) (same : Bool) :
    ∃ r, l.isEqual d same m = some r ∧
      (r = true ↔ l.tidCount = m.tidCount ∧ same = true ∧ ∀ t, t < l.tidCount →
        SameBoxes d ((l.tr.filter (fun r => r.task = t)).map TR.box)
          ((m.tr.filter (fun r => r.task = t)).map TR.box)) := by
  unfold RangeList.isEqual
  by_cases h1 : l.tidCount = m.tidCount
  · rw [if_neg (by simp [h1])]
    cases same with
    | false => exact ⟨false, rfl, by simp⟩
    | true =>
      rw [if_neg (by simp)]
      have hlen : gs.length = hs.length := by rw [h.count, h'.count, h1]
      have hgrp : ∀ (P : List Box → List Box → Prop), (∀ t, t < l.tidCount →
          P ((l.tr.filter (fun r => r.task = t)).map TR.box) ((m.tr.filter (fun r => r.task = t)).map TR.box)) ↔
          ∀ k (h1 : k < gs.length) (h2 : k < hs.length), P ((gs[k]).map TR.box) ((hs[k]).map TR.box) := by
        intro P
        constructor
        · intro hp k a b
          have := hp k (by rw [← h.count]; exact a)
          rwa [h.filter k a, h'.filter k b] at this
        · intro hp t ht
          rw [h.filter t (by rw [h.count]; exact ht), h'.filter t (by rw [h'.count]; omega)]
          exact hp t _ _
      have hlens : (∀ t, t < l.tidCount →
          SameBoxes d ((l.tr.filter (fun r => r.task = t)).map TR.box)
          ((m.tr.filter (fun r => r.task = t)).map TR.box)) → gs.map List.length = hs.map List.length := by
        intro hp
        rw [hgrp] at hp
        apply List.ext_getElem
        · simp [hlen]
        · intro k a b
          have := (hp k (by simpa using a) (by simpa using b)).length
          simpa using this
      by_cases h2 : l.tr.length = m.tr.length
      · rw [if_neg (by simp [h2])]
        have hoff : ((List.range l.tidCount).all (fun i => l.off[i]? == m.off[i]?) = true) ↔
            gs.map List.length = hs.map List.length := by
          rw [← lengths_of_offsets gs hs 0 hlen (by rw [← h.tr, ← h'.tr, h2]), h.off, h'.off]
          simp [h.count]
        by_cases h3 : (List.range l.tidCount).all (fun i => l.off[i]? == m.off[i]?) = true
        · rw [if_neg (by simp only [h3]; simp)]
          rw [hoff] at h3
          obtain ⟨r, hr, hb⟩ := eqLoop_iff d l.tr m.tr (by
            rw [h.tr, h'.tr]; exact tasks_flatten gs hs 0 h3 (by simpa using h.own) (by simpa using h'.own))
          refine ⟨r, hr, ?_⟩
          rw [hb, hgrp, h.tr, h'.tr, sameBoxes_flatten d gs hs h3]
          simp [h1]
        · rw [if_pos (by simp only [Bool.not_eq_true] at h3; simp only [h3]; rfl)]
          refine ⟨false, rfl, ?_⟩
          simp only [Bool.false_eq_true, false_iff]
          rintro ⟨_, _, hp⟩
          exact h3 (hoff.2 (hlens hp))
      · rw [if_pos (by simp [h2])]
        refine ⟨false, rfl, ?_⟩
        simp only [Bool.false_eq_true, false_iff]
        rintro ⟨_, _, hp⟩
        apply h2
        rw [h.tr, h'.tr, List.length_flatten, List.length_flatten, hlens hp]
  · rw [if_pos (by simp [h1])]
    exact ⟨false, rfl, by simp [h1]⟩

end Laik
