import Verif.Model.RangeList
/-!
# Helper lemmas for range lists
-/

namespace Laik

/-- Entries without map numbers. -/
def TR.key (t : TR) : Nat × Int × Box := (t.task, t.tag, t.box)

theorem trLe_task {a b : TR} (h : trLe a b) : a.task ≤ b.task := by
  unfold trLe at h; split at h <;> omega

theorem trLe_tag {a b : TR} (h : trLe a b) (ht : a.task = b.task) : a.tag ≤ b.tag := by
  unfold trLe at h; rw [if_pos ht] at h; split at h <;> omega

theorem trLe_lo {a b : TR} (h : trLe a b) (ht : a.task = b.task) (hg : a.tag = b.tag) :
    a.box.lo.x ≤ b.box.lo.x := by
  unfold trLe at h; rw [if_pos ht, if_pos hg] at h; exact h

/-- Map numbers as `updateOffsets` assigns them along the ranges of one task. -/
def assignMaps (mapNo lastTag : Int) : List TR → List TR
  | [] => []
  | t :: ts =>
    if t.tag = 0 ∨ t.tag ≠ lastTag then { t with mapNo := mapNo + 1 } :: assignMaps (mapNo + 1) t.tag ts
    else { t with mapNo := mapNo } :: assignMaps mapNo lastTag ts

theorem assignMaps_length (m g : Int) (l : List TR) : (assignMaps m g l).length = l.length := by
  induction l generalizing m g with
  | nil => rfl
  | cons t ts ih => simp only [assignMaps]; split <;> simp [ih]

theorem assignMaps_key (m g : Int) (l : List TR) : (assignMaps m g l).map TR.key = l.map TR.key := by
  induction l generalizing m g with
  | nil => rfl
  | cons t ts ih => simp only [assignMaps]; split <;> simp [ih, TR.key]

/-- On a list sorted by task that starts at `task` or later, the inner loop
takes exactly the entries of `task`. -/
theorem takeTask_eq (task : Nat) (m g : Int) (l : List TR)
    (hs : l.Pairwise (fun a b => a.task ≤ b.task)) (hge : ∀ t ∈ l, task ≤ t.task) :
    takeTask task m g l =
      some (assignMaps m g (l.filter (fun t => t.task = task)),
            l.filter (fun t => task < t.task)) := by
  induction l generalizing m g with
  | nil => rfl
  | cons t ts ih =>
    rw [List.pairwise_cons] at hs
    simp only [takeTask]
    by_cases h1 : t.task > task
    · have hall : ∀ u ∈ t :: ts, task < u.task := by
        intro u hu
        simp only [List.mem_cons] at hu
        rcases hu with rfl | hu
        · exact h1
        · have := hs.1 u hu; omega
      rw [if_pos h1]
      have e1 : (t :: ts).filter (fun t => decide (t.task = task)) = [] := by
        rw [List.filter_eq_nil_iff]; intro u hu; have := hall u hu; simp; omega
      have e2 : (t :: ts).filter (fun t => decide (task < t.task)) = t :: ts := by
        rw [List.filter_eq_self]; intro u hu; simpa using hall u hu
      rw [e1, e2]; rfl
    · have h2 : t.task = task := by have := hge t (by simp); omega
      rw [if_neg h1, if_neg (by simpa using h2)]
      rw [ih _ _ hs.2 (fun u hu => hge u (by simp [hu]))]
      have e1 : (t :: ts).filter (fun t => decide (t.task = task)) =
          t :: ts.filter (fun t => decide (t.task = task)) := by simp [h2]
      have e2 : (t :: ts).filter (fun t => decide (task < t.task)) =
          ts.filter (fun t => decide (task < t.task)) := by simp [h1]
      rw [e1, e2]
      simp only [assignMaps]
      split <;> simp

/-- Result of the offset computation as a function of the sorted list: for
each task its entries with map numbers. -/
def groups (l : List TR) (task n : Nat) : List (List TR) :=
  (List.range' task n).map (fun k => assignMaps (-1) (-1) (l.filter (fun t => t.task = k)))

/-- Running offsets. -/
def offsets (off : Nat) : List (List TR) → List Nat
  | [] => [off]
  | g :: gs => off :: offsets (off + g.length) gs

theorem updLoop_eq (n task off : Nat) (l : List TR)
    (hs : l.Pairwise (fun a b => a.task ≤ b.task)) (hge : ∀ t ∈ l, task ≤ t.task)
    (hlt : ∀ t ∈ l, t.task < task + n) :
    updLoop n task off l = some (offsets off (groups l task n), (groups l task n).flatten) := by
  induction n generalizing task off l with
  | zero =>
    have : l = [] := by
      cases l with
      | nil => rfl
      | cons t ts => have := hge t (by simp); have := hlt t (by simp); omega
    subst this; rfl
  | succ n ih =>
    simp only [updLoop]
    rw [takeTask_eq task _ _ l hs hge]
    simp only
    rw [ih (task + 1) _ (l.filter (fun t => task < t.task)) (hs.filter _)
      (fun t ht => by simp at ht; omega)
      (fun t ht => by simp at ht; have := hlt t ht.1; omega)]
    have hg : groups (l.filter (fun t => decide (task < t.task))) (task + 1) n =
        (List.range' (task + 1) n).map
          (fun k => assignMaps (-1) (-1) (l.filter (fun t => t.task = k))) := by
      unfold groups
      apply List.map_congr_left
      intro k hk
      rw [List.mem_range'_1] at hk
      congr 1
      rw [List.filter_filter]
      apply List.filter_congr
      intro t _
      by_cases h : t.task = k <;> simp [h]; omega
    rw [hg]
    simp only [groups, List.range'_succ, List.map_cons, offsets, List.flatten_cons]

theorem offsets_length (off : Nat) (gs : List (List TR)) : (offsets off gs).length = gs.length + 1 := by
  induction gs generalizing off with
  | nil => rfl
  | cons g gs ih => simp [offsets, ih]

theorem offsets_get (off : Nat) (gs : List (List TR)) (k : Nat) (hk : k ≤ gs.length) :
    (offsets off gs)[k]? = some (off + ((gs.take k).flatten).length) := by
  induction gs generalizing off k with
  | nil =>
    have : k = 0 := by simpa using hk
    subst this; rfl
  | cons g gs ih =>
    cases k with
    | zero => simp [offsets]
    | succ k =>
      simp only [offsets, List.getElem?_cons_succ]
      rw [ih _ _ (by simpa using hk)]
      simp; omega

theorem flatten_get_group {α : Type} (gs : List (List α)) (k n : Nat) (hk : k < gs.length)
    (hn : n < (gs[k]'hk).length) :
    gs.flatten[((gs.take k).flatten).length + n]? = (gs[k]'hk)[n]? := by
  induction gs generalizing k with
  | nil => simp at hk
  | cons g gs ih =>
    cases k with
    | zero =>
      simp only [List.getElem_cons_zero] at hn ⊢
      simp only [List.take_zero, List.flatten_nil, List.length_nil, Nat.zero_add, List.flatten_cons]
      rw [List.getElem?_append_left hn]
    | succ k =>
      simp only [List.getElem_cons_succ] at hn ⊢
      simp only [List.take_succ_cons, List.flatten_cons, List.length_append]
      rw [List.getElem?_append_right (by omega)]
      rw [← ih k (by simpa using hk) hn]
      congr 1; omega

/-- Facts about the result of `updateOffsets` on a sorted list. -/
theorem updateOffsets_spec (tidCount : Nat) (l : List TR) (hs : l.Pairwise trLe)
    (hlt : ∀ t ∈ l, t.task < tidCount) :
    updateOffsets tidCount l =
      some (offsets 0 (groups l 0 tidCount), (groups l 0 tidCount).flatten) := by
  unfold updateOffsets
  exact updLoop_eq tidCount 0 0 l (hs.imp (fun h => trLe_task h)) (fun _ _ => Nat.zero_le _)
    (fun t ht => by have := hlt t ht; omega)

theorem groups_length (l : List TR) (a n : Nat) : (groups l a n).length = n := by simp [groups]

theorem groups_get (l : List TR) (n k : Nat) (hk : k < n) :
    (groups l 0 n)[k]'(by rw [groups_length]; exact hk) =
      assignMaps (-1) (-1) (l.filter (fun t => t.task = k)) := by
  simp [groups]

/-! ### Lists whose entries are grouped per task -/

/-- A range list whose entries are the concatenation of the groups `gs`
(`gs[k]` owned by task `k`) with matching offsets. -/
structure Grouped (l : RangeList) (gs : List (List TR)) : Prop where
  count : gs.length = l.tidCount
  tr : l.tr = gs.flatten
  off : l.off = offsets 0 gs
  own : ∀ k (hk : k < gs.length), ∀ t ∈ gs[k], t.task = k

theorem Grouped.offk {l : RangeList} {gs : List (List TR)} (h : Grouped l gs) (k : Nat)
    (hk : k ≤ l.tidCount) : l.off[k]? = some ((gs.take k).flatten).length := by
  rw [h.off, offsets_get _ _ _ (by rw [h.count]; exact hk)]; simp

theorem take_succ_flatten_length (gs : List (List TR)) (k : Nat) (hk : k < gs.length) :
    ((gs.take (k+1)).flatten).length = ((gs.take k).flatten).length + (gs[k]'hk).length := by
  rw [List.take_succ_eq_append_getElem hk, List.flatten_append, List.length_append]
  simp only [List.flatten_cons, List.flatten_nil, List.append_nil]

theorem Grouped.rangeCount {l : RangeList} {gs : List (List TR)} (h : Grouped l gs) (tid : Nat)
    (ht : tid < gs.length) : l.tidRangeCount tid = some (gs[tid]).length := by
  have hc := h.count
  simp only [RangeList.tidRangeCount]
  rw [if_pos (by omega), h.offk tid (by omega), h.offk (tid+1) (by omega)]
  simp only [Option.some.injEq]
  rw [take_succ_flatten_length gs tid ht]; omega

theorem Grouped.tidRange {l : RangeList} {gs : List (List TR)} (h : Grouped l gs) (tid n : Nat)
    (ht : tid < gs.length) : l.tidRange tid n = some (gs[tid])[n]? := by
  have hc := h.count
  simp only [RangeList.tidRange]
  rw [h.rangeCount tid ht]
  simp only
  split
  · rename_i hn; rw [List.getElem?_eq_none hn]
  · rename_i hn
    rw [h.offk tid (by omega)]
    simp only [h.tr]
    rw [flatten_get_group gs tid n ht (by omega)]
    rw [List.getElem?_eq_getElem (by omega)]
    simp only
    rw [if_pos (h.own tid ht _ (List.getElem_mem _))]

theorem updateOffsets_grouped (l : List TR) (n : Nat) (hs : l.Pairwise trLe)
    (hlt : ∀ t ∈ l, t.task < n) :
    ∃ off tr, updateOffsets n l = some (off, tr) ∧
      Grouped { tidCount := n, tr, off } (groups l 0 n) := by
  refine ⟨_, _, updateOffsets_spec n l hs hlt, ?_⟩
  refine ⟨by simp [groups_length], rfl, rfl, ?_⟩
  intro k hk t ht
  rw [groups_length] at hk
  rw [groups_get l n k hk] at ht
  have := assignMaps_key (-1) (-1) (l.filter (fun t => t.task = k))
  have hm : t.key ∈ (l.filter (fun t => t.task = k)).map TR.key := by
    rw [← this]; exact List.mem_map_of_mem ht
  obtain ⟨u, hu, he⟩ := List.mem_map.1 hm
  simp at hu
  simp [TR.key] at he
  omega

/-! ### Merging -/

theorem mergeGo_own (cur : TR) (l : List TR) (hs : (cur :: l).Pairwise trLe)
    (t : Nat) (g : Int) (p : Idx) :
    (∃ r ∈ mergeGo cur l, r.task = t ∧ r.tag = g ∧ Mem .d1 r.box p) ↔
    (∃ r ∈ cur :: l, r.task = t ∧ r.tag = g ∧ Mem .d1 r.box p) := by
  induction l generalizing cur with
  | nil => simp [mergeGo]
  | cons s rest ih =>
    have hs' := List.pairwise_cons.1 hs
    have hs'' := List.pairwise_cons.1 hs'.2
    simp only [mergeGo]
    split
    · have := ih s hs'.2
      simp only [List.mem_cons, exists_eq_or_imp] at this ⊢
      rw [this]
    · rename_i hc
      have h1 : s.task = cur.task := Classical.byContradiction fun h => hc (Or.inl h)
      have h2 : s.tag = cur.tag := Classical.byContradiction fun h => hc (Or.inr (Or.inl h))
      have h3 : s.box.lo.x ≤ cur.box.hi.x := by
        rcases Int.lt_or_le cur.box.hi.x s.box.lo.x with h | h
        · exact absurd (Or.inr (Or.inr h)) hc
        · exact h
      have h4 : cur.box.lo.x ≤ s.box.lo.x := trLe_lo (hs'.1 s (by simp)) h1.symm h2.symm
      split
      · rename_i hlt
        rw [ih _ (by
          refine List.pairwise_cons.2 ⟨fun u hu => ?_, hs''.2⟩
          have := hs'.1 u (by simp [hu])
          simpa [trLe] using this)]
        simp only [List.mem_cons, exists_eq_or_imp]
        constructor
        · rintro (⟨e1, e2, hm⟩ | h)
          · rw [mem_d1] at hm; simp only at hm
            by_cases hp : p.x < cur.box.hi.x
            · exact Or.inl ⟨e1, e2, (mem_d1 _ _).2 ⟨hm.1, hp⟩⟩
            · refine Or.inr (Or.inl ⟨by omega, by omega, (mem_d1 _ _).2 ⟨by omega, by omega⟩⟩)
          · exact Or.inr (Or.inr h)
        · rintro (⟨e1, e2, hm⟩ | ⟨e1, e2, hm⟩ | h)
          · rw [mem_d1] at hm
            exact Or.inl ⟨e1, e2, (mem_d1 _ _).2 (by simp only; omega)⟩
          · rw [mem_d1] at hm
            exact Or.inl ⟨by omega, by omega, (mem_d1 _ _).2 (by simp only; omega)⟩
          · exact Or.inr h
      · rename_i hlt
        rw [ih cur (List.pairwise_cons.2 ⟨fun u hu => hs'.1 u (by simp [hu]), hs''.2⟩)]
        simp only [List.mem_cons, exists_eq_or_imp]
        constructor
        · rintro (h | h)
          · exact Or.inl h
          · exact Or.inr (Or.inr h)
        · rintro (h | ⟨e1, e2, hm⟩ | h)
          · exact Or.inl h
          · rw [mem_d1] at hm
            exact Or.inl ⟨by omega, by omega, (mem_d1 _ _).2 (by omega)⟩
          · exact Or.inr h

/-- Entries after merging stay sorted and those of one task and tag are
separated by a gap. -/
theorem mergeGo_sep (cur : TR) (l : List TR) (hs : (cur :: l).Pairwise trLe) :
    (mergeGo cur l).Pairwise (fun a b => trLe a b ∧
      (a.task = b.task → a.tag = b.tag → a.box.hi.x < b.box.lo.x)) ∧
    (∀ r ∈ mergeGo cur l, ∃ u ∈ cur :: l, r.task = u.task ∧ r.tag = u.tag ∧
      r.box.lo.x = u.box.lo.x) := by
  induction l generalizing cur with
  | nil => simp [mergeGo]
  | cons s rest ih =>
    have hs' := List.pairwise_cons.1 hs
    have hs'' := List.pairwise_cons.1 hs'.2
    simp only [mergeGo]
    split
    · rename_i hc
      obtain ⟨ih1, key⟩ := ih s hs'.2
      refine ⟨List.pairwise_cons.2 ⟨fun r hr => ?_, ih1⟩, fun r hr => ?_⟩
      · obtain ⟨u, hu, e1, e2, e3⟩ := key r hr
        have hle := hs'.1 u hu
        constructor
        · unfold trLe at hle ⊢; rw [e1, e2, e3]; exact hle
        · intro h1 h2
          rw [e3]
          have hsu : s.task = u.task ∧ s.tag = u.tag ∧ s.box.lo.x ≤ u.box.lo.x := by
            simp only [List.mem_cons] at hu
            rcases hu with rfl | hu
            · exact ⟨rfl, rfl, by omega⟩
            · have hcs := hs'.1 s (by simp)
              have hsu := hs''.1 u hu
              have t1 := trLe_task hcs; have t2 := trLe_task hsu
              have ht : s.task = u.task := by omega
              have g1 := trLe_tag hcs (by omega); have g2 := trLe_tag hsu ht
              have hg : s.tag = u.tag := by omega
              exact ⟨ht, hg, trLe_lo hsu ht hg⟩
          rcases hc with hc | hc | hc <;> omega
      · simp only [List.mem_cons] at hr
        rcases hr with rfl | hr
        · exact ⟨r, by simp, rfl, rfl, rfl⟩
        · obtain ⟨u, hu, e⟩ := key r hr
          exact ⟨u, List.mem_cons_of_mem _ hu, e⟩
    · split
      · obtain ⟨ih1, ih2⟩ := ih { cur with box := { cur.box with hi := { cur.box.hi with x := s.box.hi.x } } } (by
          refine List.pairwise_cons.2 ⟨fun u hu => ?_, hs''.2⟩
          have := hs'.1 u (by simp [hu])
          simpa [trLe] using this)
        refine ⟨ih1, fun r hr => ?_⟩
        obtain ⟨u, hu, e1, e2, e3⟩ := ih2 r hr
        simp only [List.mem_cons] at hu
        rcases hu with rfl | hu
        · exact ⟨cur, by simp, e1, e2, e3⟩
        · exact ⟨u, by simp [hu], e1, e2, e3⟩
      · obtain ⟨ih1, ih2⟩ := ih cur (List.pairwise_cons.2 ⟨fun u hu => hs'.1 u (by simp [hu]), hs''.2⟩)
        refine ⟨ih1, fun r hr => ?_⟩
        obtain ⟨u, hu, e⟩ := ih2 r hr
        simp only [List.mem_cons] at hu
        rcases hu with rfl | hu
        · exact ⟨u, by simp, e⟩
        · exact ⟨u, by simp [hu], e⟩

/-! ### Single-index conversion -/

theorem siCount_eq (task : Nat) (idx0 idx : Int) (l : List (Nat × Int)) :
    siCount task idx l = (siGo task idx0 idx l).length := by
  induction l generalizing task idx0 idx with
  | nil => rfl
  | cons a rest ih =>
    obtain ⟨t, i⟩ := a
    simp only [siCount, siGo]
    split
    · split
      · exact ih _ _ _
      · split
        · exact ih _ _ _
        · rw [List.length_cons, ← ih]; omega
    · rw [List.length_cons, ← ih]; omega

theorem siGo_own (task : Nat) (idx0 idx : Int) (l : List (Nat × Int)) (h0 : idx0 ≤ idx)
    (t : Nat) (p : Idx) :
    (∃ r ∈ siGo task idx0 idx l, r.task = t ∧ Mem .d1 r.box p) ↔
    ((t = task ∧ idx0 ≤ p.x ∧ p.x ≤ idx) ∨ (t, p.x) ∈ l) := by
  induction l generalizing task idx0 idx with
  | nil =>
    simp only [siGo, List.mem_singleton, exists_eq_left, mem_d1, List.not_mem_nil, or_false]
    constructor
    · rintro ⟨rfl, h⟩; exact ⟨rfl, by omega, by omega⟩
    · rintro ⟨rfl, h⟩; exact ⟨rfl, by omega, by omega⟩
  | cons a rest ih =>
    obtain ⟨t', i⟩ := a
    have hnew : (∃ r ∈ (⟨task, 0, ⟨⟨idx0, 0, 0⟩, ⟨idx + 1, 0, 0⟩⟩, 0⟩ : TR) :: siGo t' i i rest,
        r.task = t ∧ Mem .d1 r.box p) ↔
        ((t = task ∧ idx0 ≤ p.x ∧ p.x ≤ idx) ∨ (t, p.x) ∈ (t', i) :: rest) := by
      simp only [List.mem_cons, exists_eq_or_imp]
      rw [ih t' i i (by omega)]
      simp only [mem_d1, Prod.mk.injEq]
      constructor
      · rintro (⟨rfl, h⟩ | ⟨rfl, h⟩ | h)
        · exact Or.inl ⟨rfl, by omega, by omega⟩
        · exact Or.inr (Or.inl ⟨rfl, by omega⟩)
        · exact Or.inr (Or.inr h)
      · rintro (⟨rfl, h⟩ | ⟨rfl, h⟩ | h)
        · exact Or.inl ⟨rfl, by omega, by omega⟩
        · exact Or.inr (Or.inl ⟨rfl, by omega, by omega⟩)
        · exact Or.inr (Or.inr h)
    simp only [siGo]
    split
    · rename_i ht; subst ht
      split
      · rename_i hi; subst hi
        rw [ih _ _ _ h0]
        simp only [List.mem_cons, Prod.mk.injEq]
        constructor
        · rintro (h | h)
          · exact Or.inl h
          · exact Or.inr (Or.inr h)
        · rintro (h | ⟨rfl, h⟩ | h)
          · exact Or.inl h
          · exact Or.inl ⟨rfl, by omega, by omega⟩
          · exact Or.inr h
      · split
        · rename_i hi; subst hi
          rw [ih _ _ _ (by omega)]
          simp only [List.mem_cons, Prod.mk.injEq]
          constructor
          · rintro (⟨rfl, h⟩ | h)
            · by_cases hp : p.x ≤ idx
              · exact Or.inl ⟨rfl, by omega, hp⟩
              · exact Or.inr (Or.inl ⟨rfl, by omega⟩)
            · exact Or.inr (Or.inr h)
          · rintro (⟨rfl, h⟩ | ⟨rfl, h⟩ | h)
            · exact Or.inl ⟨rfl, by omega, by omega⟩
            · exact Or.inl ⟨rfl, by omega, by omega⟩
            · exact Or.inr h
        · exact hnew
    · exact hnew

/-- Order and separation of converted ranges; every range is non-empty. -/
theorem siGo_sep (task : Nat) (idx0 idx : Int) (l : List (Nat × Int)) (h0 : idx0 ≤ idx)
    (hs : ((task, idx) :: l).Pairwise siLe) :
    (siGo task idx0 idx l).Pairwise (fun a b => trLe a b ∧ a.task ≤ b.task ∧
      (a.task = b.task → a.box.hi.x < b.box.lo.x)) ∧
    (∀ r ∈ siGo task idx0 idx l, r.box.lo.x < r.box.hi.x ∧ r.tag = 0 ∧ r.mapNo = 0 ∧
      ((r.task = task ∧ r.box.lo.x = idx0) ∨ (r.task, r.box.lo.x) ∈ l)) := by
  induction l generalizing task idx0 idx with
  | nil => simp [siGo]; omega
  | cons a rest ih =>
    obtain ⟨t', i⟩ := a
    have hs' := List.pairwise_cons.1 hs
    have hs'' := List.pairwise_cons.1 hs'.2
    have hle := hs'.1 (t', i) (by simp)
    have hnew : (t' ≠ task ∨ idx + 1 < i) →
        ((⟨task, 0, ⟨⟨idx0, 0, 0⟩, ⟨idx + 1, 0, 0⟩⟩, 0⟩ : TR) :: siGo t' i i rest).Pairwise
          (fun a b => trLe a b ∧ a.task ≤ b.task ∧ (a.task = b.task → a.box.hi.x < b.box.lo.x)) ∧
        (∀ r ∈ (⟨task, 0, ⟨⟨idx0, 0, 0⟩, ⟨idx + 1, 0, 0⟩⟩, 0⟩ : TR) :: siGo t' i i rest,
          r.box.lo.x < r.box.hi.x ∧ r.tag = 0 ∧ r.mapNo = 0 ∧
          ((r.task = task ∧ r.box.lo.x = idx0) ∨ (r.task, r.box.lo.x) ∈ (t', i) :: rest)) := by
      intro hcase
      obtain ⟨ih1, ih2⟩ := ih t' i i (by omega) hs'.2
      refine ⟨List.pairwise_cons.2 ⟨fun r hr => ?_, ih1⟩, fun r hr => ?_⟩
      · obtain ⟨_, h2, _, h4⟩ := ih2 r hr
        have hmem : (r.task, r.box.lo.x) ∈ (t', i) :: rest := by
          rcases h4 with ⟨a, b⟩ | h4
          · simp [a, b]
          · exact List.mem_cons_of_mem _ h4
        have hl := hs'.1 _ hmem
        have hl2 : siLe (t', i) (r.task, r.box.lo.x) := by
          simp only [List.mem_cons] at hmem
          rcases hmem with h | h
          · rw [h]; simp [siLe]
          · exact hs''.1 _ h
        simp only [siLe] at hl hl2 hle
        simp only [trLe]
        split at hl <;> split at hl2 <;> split at hle <;>
          (refine ⟨?_, by omega, fun h => by omega⟩; split <;> (try split) <;> omega)
      · simp only [List.mem_cons] at hr
        rcases hr with rfl | hr
        · simp; omega
        · obtain ⟨h1, h2, h3, h4⟩ := ih2 r hr
          refine ⟨h1, h2, h3, Or.inr ?_⟩
          rcases h4 with ⟨a, b⟩ | h4
          · simp [a, b]
          · exact List.mem_cons_of_mem _ h4
    simp only [siGo]
    split
    · rename_i ht; subst ht
      split
      · rename_i hi; subst hi
        obtain ⟨ih1, ih2⟩ := ih t' idx0 i h0 hs'.2
        refine ⟨ih1, fun r hr => ?_⟩
        obtain ⟨h1, h2, h3, h4⟩ := ih2 r hr
        exact ⟨h1, h2, h3, h4.imp id (fun h => List.mem_cons_of_mem _ h)⟩
      · split
        · rename_i hi; subst hi
          obtain ⟨ih1, ih2⟩ := ih t' idx0 (idx + 1) (by omega) hs'.2
          refine ⟨ih1, fun r hr => ?_⟩
          obtain ⟨h1, h2, h3, h4⟩ := ih2 r hr
          exact ⟨h1, h2, h3, h4.imp id (fun h => List.mem_cons_of_mem _ h)⟩
        · apply hnew; right; simp [siLe] at hle; omega
    · rename_i hne; exact hnew (Or.inl hne)

theorem takeTaskSI_eq (task : Nat) (l : List TR)
    (hs : l.Pairwise (fun a b => a.task ≤ b.task)) (hge : ∀ t ∈ l, task ≤ t.task) :
    takeTaskSI task l =
      some (l.filter (fun t => t.task = task), l.filter (fun t => task < t.task)) := by
  induction l with
  | nil => rfl
  | cons t ts ih =>
    rw [List.pairwise_cons] at hs
    simp only [takeTaskSI]
    by_cases h1 : t.task > task
    · have hall : ∀ u ∈ t :: ts, task < u.task := by
        intro u hu
        simp only [List.mem_cons] at hu
        rcases hu with rfl | hu
        · exact h1
        · have := hs.1 u hu; omega
      rw [if_pos h1]
      have e1 : (t :: ts).filter (fun t => decide (t.task = task)) = [] := by
        rw [List.filter_eq_nil_iff]; intro u hu; have := hall u hu; simp; omega
      have e2 : (t :: ts).filter (fun t => decide (task < t.task)) = t :: ts := by
        rw [List.filter_eq_self]; intro u hu; simpa using hall u hu
      rw [e1, e2]
    · have h2 : t.task = task := by have := hge t (by simp); omega
      rw [if_neg h1, if_neg (by simpa using h2)]
      rw [ih hs.2 (fun u hu => hge u (by simp [hu]))]
      simp [h1, h2]

/-- Per-task groups without renumbering. -/
def groupsSI (l : List TR) (task n : Nat) : List (List TR) :=
  (List.range' task n).map (fun k => l.filter (fun t => t.task = k))

theorem updLoopSI_eq (n task off : Nat) (l : List TR)
    (hs : l.Pairwise (fun a b => a.task ≤ b.task)) (hge : ∀ t ∈ l, task ≤ t.task)
    (hlt : ∀ t ∈ l, t.task < task + n) :
    updLoopSI n task off l = some (offsets off (groupsSI l task n), (groupsSI l task n).flatten) := by
  induction n generalizing task off l with
  | zero =>
    have : l = [] := by
      cases l with
      | nil => rfl
      | cons t ts => have := hge t (by simp); have := hlt t (by simp); omega
    subst this; rfl
  | succ n ih =>
    simp only [updLoopSI]
    rw [takeTaskSI_eq task l hs hge]
    simp only
    rw [ih (task + 1) _ (l.filter (fun t => task < t.task)) (hs.filter _)
      (fun t ht => by simp at ht; omega)
      (fun t ht => by simp at ht; have := hlt t ht.1; omega)]
    have hg : groupsSI (l.filter (fun t => decide (task < t.task))) (task + 1) n =
        (List.range' (task + 1) n).map (fun k => l.filter (fun t => t.task = k)) := by
      unfold groupsSI
      apply List.map_congr_left
      intro k hk
      rw [List.mem_range'_1] at hk
      rw [List.filter_filter]
      apply List.filter_congr
      intro t _
      by_cases h : t.task = k <;> simp [h]; omega
    rw [hg]
    simp only [groupsSI, List.range'_succ, List.map_cons, offsets, List.flatten_cons]

theorem groupsSI_length (l : List TR) (a n : Nat) : (groupsSI l a n).length = n := by simp [groupsSI]

theorem groupsSI_get (l : List TR) (n k : Nat) (hk : k < n) :
    (groupsSI l 0 n)[k]'(by rw [groupsSI_length]; exact hk) = l.filter (fun t => t.task = k) := by
  simp [groupsSI]

theorem freezeSI_grouped (n : Nat) (t : Nat) (i : Int) (l : List (Nat × Int))
    (hs : ((t, i) :: l).Pairwise siLe) (hlt : ∀ a ∈ (t, i) :: l, a.1 < n) :
    ∃ off tr, freezeSI n ((t, i) :: l) = some { tidCount := n, tr, off } ∧
      Grouped { tidCount := n, tr, off } (groupsSI (siGo t i i l) 0 n) := by
  obtain ⟨h1, h2⟩ := siGo_sep t i i l (by omega) hs
  have htask : ∀ r ∈ siGo t i i l, r.task < n := by
    intro r hr
    rcases (h2 r hr).2.2.2 with ⟨a, _⟩ | h
    · rw [a]; exact hlt (t, i) (by simp)
    · exact hlt _ (List.mem_cons_of_mem _ h)
  have hu := updLoopSI_eq n 0 0 (siGo t i i l) (h1.imp (fun h => h.2.1)) (fun _ _ => Nat.zero_le _)
    (fun r hr => by have := htask r hr; omega)
  refine ⟨offsets 0 (groupsSI (siGo t i i l) 0 n), (groupsSI (siGo t i i l) 0 n).flatten, ?_, ?_⟩
  · simp only [freezeSI]
    rw [if_pos (siCount_eq t i i l), hu]
  · refine ⟨by simp [groupsSI_length], rfl, rfl, ?_⟩
    intro k hk r hr
    rw [groupsSI_length] at hk
    rw [groupsSI_get _ n k hk] at hr
    simpa using (List.mem_filter.1 hr).2

/-! ### Map numbers -/

/-- Along a tag-sorted list: numbers of later entries. -/
theorem assignMaps_spec (m g : Int) (l : List TR)
    (hs : l.Pairwise (fun a b => a.tag ≤ b.tag)) (hg : ∀ t ∈ l, g ≤ t.tag) :
    (∀ t ∈ assignMaps m g l, m ≤ t.mapNo ∧
      (t.mapNo = m ↔ t.tag = g ∧ t.tag ≠ 0)) ∧
    (assignMaps m g l).Pairwise (fun a b => a.mapNo ≤ b.mapNo ∧
      (a.mapNo = b.mapNo ↔ a.tag = b.tag ∧ a.tag ≠ 0)) ∧
    (∀ k : Int, m < k → (∃ t ∈ assignMaps m g l, k ≤ t.mapNo) → ∃ t ∈ assignMaps m g l, t.mapNo = k) := by
  induction l generalizing m g with
  | nil => simp [assignMaps]
  | cons t ts ih =>
    rw [List.pairwise_cons] at hs
    have hkey : ∀ m' g' (u : TR), u ∈ assignMaps m' g' ts → ∃ v ∈ ts, v.tag = u.tag := by
      intro m' g' u hu
      have := assignMaps_key m' g' ts
      have hm : u.key ∈ ts.map TR.key := by rw [← this]; exact List.mem_map_of_mem hu
      obtain ⟨v, hv, he⟩ := List.mem_map.1 hm
      simp [TR.key] at he
      exact ⟨v, hv, he.2.1⟩
    simp only [assignMaps]
    split
    · rename_i hc
      obtain ⟨i1, i2, i3⟩ := ih (m + 1) t.tag hs.2 hs.1
      have hgt := hg t (by simp)
      refine ⟨?_, ?_, ?_⟩
      · intro u hu
        simp only [List.mem_cons] at hu
        rcases hu with rfl | hu
        · refine ⟨by simp; omega, ?_⟩
          simp only
          constructor
          · intro h; omega
          · intro h; omega
        · have h1 := i1 u hu
          obtain ⟨v, hv, he⟩ := hkey _ _ u hu
          have := hs.1 v hv
          refine ⟨by omega, ?_⟩
          constructor
          · intro h; omega
          · intro h
            exfalso
            have h2 : u.tag = t.tag := by omega
            have h3 := h1.2
            rcases hc with hc | hc <;> omega
      · refine List.pairwise_cons.2 ⟨fun u hu => ?_, i2⟩
        have h1 := i1 u hu
        refine ⟨h1.1, ?_⟩
        simp only
        constructor
        · intro h
          have := h1.2.1 h.symm
          exact ⟨this.1.symm, by rw [← this.1]; exact this.2⟩
        · rintro ⟨a, b⟩
          exact (h1.2.2 ⟨a.symm, by rw [← a]; exact b⟩).symm
      · intro k hk ⟨u, hu, hku⟩
        by_cases hk1 : k = m + 1
        · exact ⟨_, List.mem_cons_self, hk1.symm⟩
        · simp only [List.mem_cons] at hu
          rcases hu with rfl | hu
          · simp only at hku; omega
          · obtain ⟨w, hw, he⟩ := i3 k (by omega) ⟨u, hu, hku⟩
            exact ⟨w, by simp [hw], he⟩
    · rename_i hc
      have hc1 : t.tag ≠ 0 := fun h => hc (Or.inl h)
      have hc2 : t.tag = g := Classical.byContradiction fun h => hc (Or.inr h)
      obtain ⟨i1, i2, i3⟩ := ih m g hs.2 (fun u hu => hg u (by simp [hu]))
      refine ⟨?_, ?_, ?_⟩
      · intro u hu
        simp only [List.mem_cons] at hu
        rcases hu with rfl | hu
        · simp [hc1, hc2]; omega
        · exact i1 u hu
      · refine List.pairwise_cons.2 ⟨fun u hu => ?_, i2⟩
        have h1 := i1 u hu
        refine ⟨h1.1, ?_⟩
        simp only
        constructor
        · intro h
          have := h1.2.1 h.symm
          omega
        · rintro ⟨a, b⟩
          exact (h1.2.2 ⟨by omega, by omega⟩).symm
      · intro k hk ⟨u, hu, hku⟩
        simp only [List.mem_cons] at hu
        rcases hu with rfl | hu
        · simp only at hku; omega
        · obtain ⟨w, hw, he⟩ := i3 k hk ⟨u, hu, hku⟩
          exact ⟨w, by simp [hw], he⟩

/-! ### Map offsets -/

theorem takeMap_eq (m : Int) (l : List TR)
    (hs : l.Pairwise (fun a b => a.mapNo ≤ b.mapNo)) (hge : ∀ t ∈ l, m ≤ t.mapNo) :
    takeMap m l = some ((l.filter (fun t => t.mapNo = m)).length, l.filter (fun t => m < t.mapNo)) := by
  induction l with
  | nil => rfl
  | cons t ts ih =>
    rw [List.pairwise_cons] at hs
    simp only [takeMap]
    by_cases h1 : t.mapNo > m
    · have hall : ∀ u ∈ t :: ts, m < u.mapNo := by
        intro u hu
        simp only [List.mem_cons] at hu
        rcases hu with rfl | hu
        · exact h1
        · have := hs.1 u hu; omega
      rw [if_pos h1]
      have e1 : (t :: ts).filter (fun t => decide (t.mapNo = m)) = [] := by
        rw [List.filter_eq_nil_iff]; intro u hu; have := hall u hu; simp; omega
      have e2 : (t :: ts).filter (fun t => decide (m < t.mapNo)) = t :: ts := by
        rw [List.filter_eq_self]; intro u hu; simpa using hall u hu
      rw [e1, e2]; rfl
    · have h2 : t.mapNo = m := by have := hge t (by simp); omega
      rw [if_neg h1, if_neg (by simpa using h2)]
      rw [ih hs.2 (fun u hu => hge u (by simp [hu]))]
      simp [h1, h2]

/-- Groups of entries with the same map number. -/
def mapGroups (l : List TR) (m n : Nat) : List (List TR) :=
  (List.range' m n).map (fun k => l.filter (fun t => t.mapNo = ((k : Nat) : Int)))

theorem mapOffLoop_eq (n m off : Nat) (l : List TR)
    (hs : l.Pairwise (fun a b => a.mapNo ≤ b.mapNo)) (hge : ∀ t ∈ l, (m : Int) ≤ t.mapNo)
    (hlt : ∀ t ∈ l, t.mapNo < m + n) :
    mapOffLoop n m off l = some (offsets off (mapGroups l m n)) ∧ (mapGroups l m n).flatten = l := by
  induction n generalizing m off l with
  | zero =>
    have : l = [] := by
      cases l with
      | nil => rfl
      | cons t ts => have := hge t (by simp); have := hlt t (by simp); omega
    subst this; exact ⟨rfl, rfl⟩
  | succ n ih =>
    simp only [mapOffLoop]
    rw [takeMap_eq m l hs hge]
    simp only
    obtain ⟨i1, i2⟩ := ih (m + 1) (off + (l.filter (fun t => t.mapNo = (m : Int))).length)
      (l.filter (fun t => (m : Int) < t.mapNo)) (hs.filter _)
      (fun t ht => by simp at ht; omega)
      (fun t ht => by simp at ht; have := hlt t ht.1; omega)
    have hg : mapGroups (l.filter (fun t => decide ((m : Int) < t.mapNo))) (m + 1) n =
        (List.range' (m + 1) n).map (fun k => l.filter (fun t => t.mapNo = ((k : Nat) : Int))) := by
      unfold mapGroups
      apply List.map_congr_left
      intro k hk
      rw [List.mem_range'_1] at hk
      rw [List.filter_filter]
      apply List.filter_congr
      intro t _
      by_cases h : t.mapNo = (k : Int) <;> simp [h]; omega
    rw [i1]
    constructor
    · rw [hg]; simp [mapGroups, List.range'_succ, offsets]
    · simp only [mapGroups, List.range'_succ, List.map_cons, List.flatten_cons]
      rw [← hg, i2]
      clear ih i1 i2 hg hlt
      induction l with
      | nil => rfl
      | cons t ts ih =>
        rw [List.pairwise_cons] at hs
        by_cases h : t.mapNo = (m : Int)
        · have : ¬ ((m : Int) < t.mapNo) := by omega
          simp only [List.filter_cons, h, decide_true, if_true, List.cons_append]
          simp only [Int.lt_irrefl, decide_false, Bool.false_eq_true, if_false]
          rw [ih hs.2 (fun u hu => hge u (by simp [hu]))]
        · have hgt : (m : Int) < t.mapNo := by have := hge t (by simp); omega
          have e1 : (t :: ts).filter (fun t => decide (t.mapNo = (m : Int))) = [] := by
            rw [List.filter_eq_nil_iff]; intro u hu
            simp only [List.mem_cons] at hu
            rcases hu with rfl | hu
            · simpa using h
            · have := hs.1 u hu; simp; omega
          have e2 : (t :: ts).filter (fun t => decide ((m : Int) < t.mapNo)) = t :: ts := by
            rw [List.filter_eq_self]; intro u hu
            simp only [List.mem_cons] at hu
            rcases hu with rfl | hu
            · simpa using hgt
            · have := hs.1 u hu; simp; omega
          rw [e1, e2]; rfl

theorem flatten_slice {α : Type} (gs : List (List α)) (k : Nat) (hk : k < gs.length) :
    (gs.flatten.take ((gs.take (k+1)).flatten).length).drop ((gs.take k).flatten).length = gs[k]'hk := by
  induction gs generalizing k with
  | nil => simp at hk
  | cons g gs ih =>
    cases k with
    | zero => simp
    | succ k =>
      simp only [List.take_succ_cons, List.flatten_cons, List.length_append,
        List.getElem_cons_succ, List.take_length_add_append]
      rw [List.drop_length_add_append]
      exact ih k (by simpa using hk)

/-- Conditions on the map numbers of one group: ascending, in `0..mc-1`, the
last one being `mc-1`. -/
structure MapsOk (g : List TR) (mc : Nat) : Prop where
  asc : g.Pairwise (fun a b => a.mapNo ≤ b.mapNo)
  ge : ∀ t ∈ g, 0 ≤ t.mapNo
  last : ∀ t, g.getLast? = some t → t.mapNo + 1 = mc
  nil : g = [] → mc = 0

theorem MapsOk.lt {g : List TR} {mc : Nat} (h : MapsOk g mc) : ∀ t ∈ g, t.mapNo < mc := by
  intro t ht
  have hne : g ≠ [] := List.ne_nil_of_mem ht
  have hl := h.last (g.getLast hne) (List.getLast?_eq_some_getLast hne)
  have : t.mapNo ≤ (g.getLast hne).mapNo := by
    have hsplit := List.dropLast_concat_getLast hne
    have ha := h.asc
    rw [← hsplit] at ha ht
    have := List.pairwise_append.1 ha
    simp only [List.mem_append, List.mem_singleton] at ht
    rcases ht with ht | ht
    · exact this.2.2 t ht _ (by simp)
    · rw [ht]; exact Int.le_refl _
  omega

theorem Grouped.mapCount {l : RangeList} {gs : List (List TR)} (h : Grouped l gs) (tid : Nat)
    (ht : tid < gs.length) (mc : Nat) (hm : MapsOk gs[tid] mc) : l.tidMapCount tid = some (mc : Int) := by
  have hc := h.count
  simp only [RangeList.tidMapCount]
  rw [if_pos (by omega), h.offk tid (by omega), h.offk (tid+1) (by omega)]
  simp only
  rw [take_succ_flatten_length gs tid ht]
  by_cases hn : gs[tid] = []
  · simp [hn, hm.nil hn]
  · have hpos : 0 < gs[tid].length := List.length_pos_iff.2 hn
    rw [if_neg (by omega), h.tr]
    rw [show (gs.take tid).flatten.length + gs[tid].length - 1 =
      (gs.take tid).flatten.length + (gs[tid].length - 1) from by omega]
    rw [flatten_get_group gs tid _ ht (by omega)]
    rw [← List.getLast?_eq_getElem?, List.getLast?_eq_some_getLast hn]
    simp only [Option.map_some, Option.some.injEq]
    exact hm.last _ (List.getLast?_eq_some_getLast hn)

theorem mapGroups_length (l : List TR) (m n : Nat) : (mapGroups l m n).length = n := by
  simp [mapGroups]

/-- Enumeration per map on a list without cached offsets. -/
theorem Grouped.tidMapRange {l : RangeList} {gs : List (List TR)} (h : Grouped l gs) (tid : Nat)
    (ht : tid < gs.length) (mc : Nat) (hm : MapsOk gs[tid] mc) (hcache : l.mapTid = none)
    (k n : Nat) :
    l.tidMapRange tid k n = some (gs[tid].filter (fun t => t.mapNo = (k : Int)))[n]? := by
  have hc := h.count
  have hcount := h.mapCount tid ht mc hm
  have hslice := flatten_slice gs tid ht
  have hoff1 := h.offk tid (by omega)
  have hoff2 := h.offk (tid+1) (by omega)
  by_cases hn : gs[tid] = []
  · have hl := take_succ_flatten_length gs tid ht
    rw [hn] at hl
    simp only [RangeList.tidMapRange, RangeList.updateMapOffsets, hcache, hoff1, hoff2, hcount, hl, hn]
    simp
    rw [if_pos (by omega)]; rfl
  · have hpos : 0 < gs[tid].length := List.length_pos_iff.2 hn
    have hl := take_succ_flatten_length gs tid ht
    obtain ⟨hmo, hfl⟩ := mapOffLoop_eq mc 0 (gs.take tid).flatten.length gs[tid] hm.asc
      (fun t ht => by simpa using hm.ge t ht) (fun t ht => by have := hm.lt t ht; omega)
    have hupd : l.updateMapOffsets tid = some { l with
        mapTid := some tid,
        mapOff := offsets (gs.take tid).flatten.length (mapGroups gs[tid] 0 mc) } := by
      simp only [RangeList.updateMapOffsets, hcache, hoff1, hoff2, hcount]
      rw [if_neg (by simp), if_neg (by simp), if_pos (by omega), if_pos (by omega)]
      simp only [Int.toNat_natCast]
      rw [h.tr, hslice, hmo]
    simp only [RangeList.tidMapRange, hupd]
    by_cases hk : k < mc
    · rw [offsets_get _ _ k (by rw [mapGroups_length]; omega),
        offsets_get _ _ (k+1) (by rw [mapGroups_length]; omega)]
      simp only
      rw [take_succ_flatten_length (mapGroups gs[tid] 0 mc) k (by rw [mapGroups_length]; exact hk)]
      have hgk : (mapGroups gs[tid] 0 mc)[k]'(by rw [mapGroups_length]; exact hk) =
          gs[tid].filter (fun t => t.mapNo = (k : Int)) := by simp [mapGroups]
      rw [hgk]
      split
      · rename_i hge
        rw [List.getElem?_eq_none (by omega)]
      · rename_i hlt
        have hlt' : n < (gs[tid].filter (fun t => t.mapNo = (k : Int))).length := by omega
        have e1 : l.tr[(gs.take tid).flatten.length +
            ((mapGroups gs[tid] 0 mc).take k).flatten.length + n]? =
            (gs[tid].filter (fun t => t.mapNo = (k : Int)))[n]? := by
          rw [h.tr]
          have hin : ((mapGroups gs[tid] 0 mc).take k).flatten.length + n < gs[tid].length := by
            have hx := take_succ_flatten_length (mapGroups gs[tid] 0 mc) k
              (by rw [mapGroups_length]; exact hk)
            have hy : ((mapGroups gs[tid] 0 mc).take (k+1)).flatten.length ≤
                (mapGroups gs[tid] 0 mc).flatten.length := by
              conv => rhs; rw [← List.take_append_drop (k+1) (mapGroups gs[tid] 0 mc),
                List.flatten_append, List.length_append]
              omega
            rw [hfl] at hy
            rw [hgk] at hx
            omega
          rw [Nat.add_assoc, flatten_get_group gs tid _ ht hin]
          have := flatten_get_group (mapGroups gs[tid] 0 mc) k n (by rw [mapGroups_length]; exact hk)
            (by rw [hgk]; exact hlt')
          rw [hgk] at this
          rw [← this]
          congr 1; exact hfl.symm
        rw [e1, List.getElem?_eq_getElem hlt']
        have hmem := List.getElem_mem hlt'
        rw [List.mem_filter] at hmem
        simp only
        rw [if_pos ⟨h.own tid ht _ hmem.1, by simpa using hmem.2⟩]
    · have hnil : gs[tid].filter (fun t => t.mapNo = (k : Int)) = [] := by
        rw [List.filter_eq_nil_iff]; intro t ht2
        have := hm.lt t ht2; simp; omega
      rw [hnil]
      have : (offsets (gs.take tid).flatten.length (mapGroups gs[tid] 0 mc))[k+1]? = none := by
        rw [List.getElem?_eq_none]; rw [offsets_length, mapGroups_length]; omega
      rw [this]
      split
      · rename_i h2; simp at h2
      · rfl

/-! ### Grouping a sorted list changes nothing -/

theorem filter_split (m : Nat) (l : List TR)
    (hs : l.Pairwise (fun a b => a.task ≤ b.task)) (hge : ∀ t ∈ l, m ≤ t.task) :
    l.filter (fun t => t.task = m) ++ l.filter (fun t => m < t.task) = l := by
  induction l with
  | nil => rfl
  | cons t ts ih =>
    rw [List.pairwise_cons] at hs
    by_cases h : t.task = m
    · simp only [List.filter_cons, h, decide_true, if_true, List.cons_append]
      simp only [Nat.lt_irrefl, decide_false, Bool.false_eq_true, if_false]
      rw [ih hs.2 (fun u hu => hge u (by simp [hu]))]
    · have hgt : m < t.task := by have := hge t (by simp); omega
      have e1 : (t :: ts).filter (fun t => decide (t.task = m)) = [] := by
        rw [List.filter_eq_nil_iff]; intro u hu
        simp only [List.mem_cons] at hu
        rcases hu with rfl | hu
        · simpa using h
        · have := hs.1 u hu; simp; omega
      have e2 : (t :: ts).filter (fun t => decide (m < t.task)) = t :: ts := by
        rw [List.filter_eq_self]; intro u hu
        simp only [List.mem_cons] at hu
        rcases hu with rfl | hu
        · simpa using hgt
        · have := hs.1 u hu; simp; omega
      rw [e1, e2]; rfl

theorem groupsSI_flatten (n task : Nat) (l : List TR)
    (hs : l.Pairwise (fun a b => a.task ≤ b.task)) (hge : ∀ t ∈ l, task ≤ t.task)
    (hlt : ∀ t ∈ l, t.task < task + n) : (groupsSI l task n).flatten = l := by
  induction n generalizing task l with
  | zero =>
    cases l with
    | nil => rfl
    | cons t ts => have := hge t (by simp); have := hlt t (by simp); omega
  | succ n ih =>
    have hg : (List.range' (task + 1) n).map (fun k => l.filter (fun t => t.task = k)) =
        groupsSI (l.filter (fun t => decide (task < t.task))) (task + 1) n := by
      unfold groupsSI
      apply List.map_congr_left
      intro k hk
      rw [List.mem_range'_1] at hk
      rw [List.filter_filter]
      apply List.filter_congr
      intro t _
      by_cases h : t.task = k <;> simp [h]; omega
    simp only [groupsSI, List.range'_succ, List.map_cons, List.flatten_cons]
    rw [hg, ih (task + 1) _ (hs.filter _) (fun t ht => by simp at ht; omega)
      (fun t ht => by simp at ht; have := hlt t ht.1; omega)]
    exact filter_split task l hs hge

theorem groups_flatten_key (n : Nat) (l : List TR) (hs : l.Pairwise trLe)
    (hlt : ∀ t ∈ l, t.task < n) : (groups l 0 n).flatten.map TR.key = l.map TR.key := by
  have h := groupsSI_flatten n 0 l (hs.imp (fun h => trLe_task h)) (fun _ _ => Nat.zero_le _)
    (fun t ht => by have := hlt t ht; omega)
  conv => rhs; rw [← h]
  rw [List.map_flatten, List.map_flatten]
  congr 1
  simp only [groups, groupsSI, List.map_map]
  apply List.map_congr_left
  intro k _
  simp only [Function.comp]
  exact assignMaps_key _ _ _

theorem mem_of_key {l l' : List TR} (h : l.map TR.key = l'.map TR.key) {t : TR} (ht : t ∈ l) :
    ∃ u ∈ l', u.task = t.task ∧ u.tag = t.tag ∧ u.box = t.box := by
  have : t.key ∈ l'.map TR.key := by rw [← h]; exact List.mem_map_of_mem ht
  obtain ⟨u, hu, he⟩ := List.mem_map.1 this
  simp [TR.key] at he
  exact ⟨u, hu, he⟩

end Laik
