import Verif.Model.Transition2d
import Mathlib.Data.List.Nodup
import Mathlib.Tactic.ByContra
/-!
# C19: transitions in 2d and 3d spaces without reduction
-/

namespace Laik

/-- Ranges of the messages for/from one process, in order. -/
def msgsWith (t : Nat) (l : List (Nat × Box × Int)) : List Box :=
  l.filterMap (fun m => if m.1 = t then some m.2.1 else none)

/-- Source ranges of different processes do not overlap, no range is empty. -/
structure SrcOK (d : Dims) (F : List TR) : Prop where
  ne : ∀ r ∈ F, ∃ p, Mem d r.box p
  dis : ∀ r ∈ F, ∀ q ∈ F, r.task ≠ q.task → ∀ p, ¬ (Mem d r.box p ∧ Mem d q.box p)

theorem msgsWith_sends {d : Dims} {n : Nat} {F T : List TR} {a b : Nat} (hb : b < n) (hab : a ≠ b) :
    msgsWith b (sends2 d n F T a) = (send2 d F T a b).map (·.1) := by
  have h := pick_flatMap (send2 d F T a b) b ((List.range n).filter (fun t => decide (t ≠ a)))
    (List.nodup_range.filter _) (fun t => (send2 d F T a t).map (fun m => (t, m))) ?_ (by simp [hb, Ne.symm hab])
  · rw [← h]
    unfold msgsWith sends2
    rw [List.map_filterMap]
    apply List.filterMap_congr
    intro m _
    split <;> rfl
  · intro u
    rw [List.filterMap_map]
    by_cases e : u = b
    · subst e; simp
    · simp [e]

theorem msgsWith_recvs {d : Dims} {n : Nat} {F T : List TR} {a b : Nat} (ha : a < n) (hab : a ≠ b) :
    msgsWith a (recvs2 d n F T b) = (recv2 d F T b a).map (·.1) := by
  have h := pick_flatMap (recv2 d F T b a) a ((List.range n).filter (fun t => decide (t ≠ b)))
    (List.nodup_range.filter _) (fun t => (recv2 d F T b t).map (fun m => (t, m))) ?_ (by simp [ha, hab])
  · rw [← h]
    unfold msgsWith recvs2
    rw [List.map_filterMap]
    apply List.filterMap_congr
    intro m _
    split <;> rfl
  · intro u
    rw [List.filterMap_map]
    by_cases e : u = a
    · subst e; simp
    · simp [e]

theorem isEqual_mem {d : Dims} {a b : Box} (h : a.isEqual d b = true) (p : Idx) : Mem d a p ↔ Mem d b p := by
  rw [isEqual_iff_dims] at h
  constructor <;> intro hp k hk <;> have := h k hk <;> have := hp k hk <;> omega

theorem isEqual_isEmpty {d : Dims} {a b : Box} (h : a.isEqual d b = true) (hb : ∃ p, Mem d b p) : a.isEmpty d = false := by
  rw [not_isEmpty_iff]
  obtain ⟨p, hp⟩ := hb
  exact ⟨p, (isEqual_mem h p).2 hp⟩

theorem intersect_none_of_disjoint {d : Dims} {a b : Box} (ha : ∃ p, Mem d a p) (hb : b.isEmpty d = false)
    (h : ∀ p, ¬ (Mem d a p ∧ Mem d b p)) : a.intersect d b = none := by
  cases e : a.intersect d b with
  | none => rfl
  | some c =>
    have := intersect_nonempty d a b c ((not_isEmpty_iff d a).2 ha) hb e
    rw [not_isEmpty_iff] at this
    obtain ⟨p, hp⟩ := this
    exact absurd ((intersect_mem d a b c e p).1 hp) (h p)

/-- Without overlap in the source, sends are not skipped. -/
theorem send2_eq {d : Dims} {F T : List TR} (h : SrcOK d F) {a b : Nat} (hab : a ≠ b) :
    (send2 d F T a b).map (·.1) = (ownRanges F a).flatMap (fun r => (ownRanges T b).flatMap (fun q =>
      (r.box.intersect d q.box).toList)) := by
  unfold send2
  rw [List.map_flatMap]
  have : ∀ r ∈ ownRanges F a, (ownRanges F b).any (fun o => r.box.isEqual d o.box) = false := by
    intro r hr
    rw [List.any_eq_false]
    intro o ho e
    rw [mem_ownRanges] at hr ho
    obtain ⟨p, hp⟩ := h.ne r hr.1
    exact h.dis r hr.1 o ho.1 (by rw [hr.2, ho.2]; exact hab) p ⟨hp, (isEqual_mem e p).1 hp⟩
  unfold List.flatMap
  congr 1
  apply List.map_congr_left
  intro r hr
  rw [this r hr]
  simp only [Bool.false_eq_true, if_false]
  rw [List.map_filterMap, filterMap_single]
  unfold List.flatMap
  congr 1
  apply List.map_congr_left
  intro q _
  cases r.box.intersect d q.box <;> rfl

/-- Without overlap in the source, skipped receives would be empty. -/
theorem recv2_eq {d : Dims} {F T : List TR} (h : SrcOK d F) {a b : Nat} (hab : a ≠ b) :
    (recv2 d F T b a).map (·.1) = (ownRanges T b).flatMap (fun q => (ownRanges F a).flatMap (fun r =>
      (r.box.intersect d q.box).toList)) := by
  unfold recv2
  rw [List.map_flatMap]
  unfold List.flatMap
  congr 1
  apply List.map_congr_left
  intro q _
  by_cases c : (ownRanges F b).any (fun o => q.box.isEqual d o.box) = true
  · rw [if_pos c]
    rw [List.any_eq_true] at c
    obtain ⟨o, ho, e⟩ := c
    rw [mem_ownRanges] at ho
    symm
    show ((ownRanges F a).flatMap _) = []
    rw [List.flatMap_eq_nil_iff]
    intro r hr
    rw [mem_ownRanges] at hr
    rw [intersect_none_of_disjoint (h.ne r hr.1) (isEqual_isEmpty e (h.ne o ho.1))]
    · rfl
    · rintro p ⟨h1, h2⟩
      exact h.dis r hr.1 o ho.1 (by rw [hr.2, ho.2]; exact hab) p ⟨h1, (isEqual_mem e p).1 h2⟩
  · rw [if_neg c, List.map_filterMap, filterMap_single]
    unfold List.flatMap
    congr 1
    apply List.map_congr_left
    intro r _
    cases r.box.intersect d q.box <;> rfl

/-- **C19 (part).** If source ranges of different processes do not overlap, the
messages sent from `a` to `b` and those `b` expects from `a` are the same up to
order.  Missing for the full property: sources with overlap (false, see
`C19_missing_message`) and same order (false, see `C19_order_differs`). -/
theorem C19_messages_match_partial {d : Dims} {n : Nat} {F T : List TR} (h : SrcOK d F) {a b : Nat}
    (ha : a < n) (hb : b < n) (hab : a ≠ b) :
    (msgsWith b (sends2 d n F T a)).Perm (msgsWith a (recvs2 d n F T b)) := by
  rw [msgsWith_sends hb hab, msgsWith_recvs ha hab, send2_eq h hab, recv2_eq h hab]
  exact flatMap_swap _ _ _

/-- **C19 (part).** The order is also the same if the sender has at most one
source range or the receiver at most one target range. -/
theorem C19_messages_order_partial {d : Dims} {n : Nat} {F T : List TR} (h : SrcOK d F) {a b : Nat}
    (ha : a < n) (hb : b < n) (hab : a ≠ b)
    (hone : (F.filter (fun r => decide (r.task = a))).length ≤ 1 ∨ (T.filter (fun r => decide (r.task = b))).length ≤ 1) :
    msgsWith b (sends2 d n F T a) = msgsWith a (recvs2 d n F T b) := by
  rw [msgsWith_sends hb hab, msgsWith_recvs ha hab, send2_eq h hab, recv2_eq h hab]
  change (ownRanges F a).length ≤ 1 ∨ (ownRanges T b).length ≤ 1 at hone
  generalize ownRanges F a = l at *
  generalize ownRanges T b = m at *
  have one : ∀ {α : Type} (k : List α), k.length ≤ 1 → k = [] ∨ ∃ x, k = [x] := by
    intro α k hk
    match k, hk with
    | [], _ => exact Or.inl rfl
    | [x], _ => exact Or.inr ⟨x, rfl⟩
  rcases hone with g | g
  · rcases one l g with rfl | ⟨x, rfl⟩
    · simp
    · simp
  · rcases one m g with rfl | ⟨x, rfl⟩
    · simp
    · simp

/-! ### Delivered values -/

/-- Processes from which index `p` of the target mapping of `me` gets a value,
in order of operations (local copies first). -/
def sources2 (d : Dims) (n : Nat) (F T : List TR) (me : Nat) (p : Idx) : List Nat :=
  ((local2 d F T me).filter (fun o => decide (Mem d o.1 p))).map (fun _ => me) ++
  ((recvs2 d n F T me).filter (fun m => decide (Mem d m.2.1 p))).map (fun m => m.1)

theorem filter_one {α : Type} {l : List α} {P : α → Bool} (h : l.Pairwise (fun a b => ¬ (P a = true ∧ P b = true))) :
    (∀ a ∈ l, P a = true → l.filter P = [a]) := by
  induction l with
  | nil => intro a ha; cases ha
  | cons b l ih =>
    rw [List.pairwise_cons] at h
    intro a ha hP
    by_cases c : P b = true
    · have : l.filter P = [] := by
        rw [List.filter_eq_nil_iff]
        intro x hx hPx
        exact h.1 x hx ⟨c, hPx⟩
      rw [List.filter_cons_of_pos c, this]
      rcases List.mem_cons.1 ha with rfl | ha
      · rfl
      · exact absurd ⟨c, hP⟩ (h.1 a ha)
    · rw [List.filter_cons_of_neg c]
      rcases List.mem_cons.1 ha with rfl | ha
      · exact absurd hP c
      · exact ih h.2 a ha hP

theorem inter_filter {d : Dims} (p : Idx) (a b : Box) :
    ((a.intersect d b).toList.filter (fun c => decide (Mem d c p))).length =
      if Mem d a p ∧ Mem d b p then 1 else 0 := by
  cases e : a.intersect d b with
  | none =>
    rw [if_neg (intersect_none d a b e p)]; rfl
  | some c =>
    have := intersect_mem d a b c e p
    by_cases g : Mem d c p
    · rw [if_pos (this.1 g)]; simp [g]
    · rw [if_neg (fun k => g (this.2 k))]; simp [g]

/-- Length of the nested loops, restricted to boxes with `p`. -/
theorem nested_count {d : Dims} (p : Idx) (l m : List TR) :
    ((l.flatMap (fun r => m.flatMap (fun q => (r.box.intersect d q.box).toList))).filter
      (fun c => decide (Mem d c p))).length =
    (l.filter (fun r => decide (Mem d r.box p))).length * (m.filter (fun q => decide (Mem d q.box p))).length := by
  have inner : ∀ r : TR, ((m.flatMap (fun q => (r.box.intersect d q.box).toList)).filter
      (fun c => decide (Mem d c p))).length =
      if Mem d r.box p then (m.filter (fun q => decide (Mem d q.box p))).length else 0 := by
    intro r
    induction m with
    | nil => simp
    | cons q m ih =>
      rw [List.flatMap_cons, List.filter_append, List.length_append, ih, inter_filter]
      by_cases g : Mem d r.box p
      · by_cases k : Mem d q.box p
        · simp [g, k]; omega
        · simp [g, k]
      · simp [g]
  induction l with
  | nil => simp
  | cons r l ih =>
    rw [List.flatMap_cons, List.filter_append, List.length_append, ih, inner]
    by_cases g : Mem d r.box p
    · simp [g, Nat.add_mul]; omega
    · simp [g]

theorem map_const_eq {α β : Type} (l : List α) (c : β) : l.map (fun _ => c) = List.replicate l.length c := by
  induction l with
  | nil => rfl
  | cons a l ih => simp [ih, List.replicate_succ]

/-- **C19 (data).** If no two source ranges overlap and target ranges of one
process do not overlap, each target index gets exactly one value, from the
owner of the index in the source; an index nobody owned before, or which is no
target index of the process, gets none. -/
theorem C19_delivers_partial {d : Dims} {n : Nat} {F T : List TR} (hne : ∀ r ∈ F, ∃ p, Mem d r.box p)
    (hn : ∀ r ∈ F, r.task < n)
    (hF : F.Pairwise (fun r q => ∀ p, ¬ (Mem d r.box p ∧ Mem d q.box p)))
    (hT : T.Pairwise (fun r q => r.task = q.task → ∀ p, ¬ (Mem d r.box p ∧ Mem d q.box p)))
    (me : Nat) (p : Idx) :
    (∀ r ∈ F, ∀ q ∈ T, q.task = me → Mem d r.box p → Mem d q.box p → sources2 d n F T me p = [r.task]) ∧
    ((∀ r ∈ F, ¬ Mem d r.box p) ∨ (∀ q ∈ T, q.task = me → ¬ Mem d q.box p) → sources2 d n F T me p = []) := by
  have hF' : ∀ r ∈ F, ∀ q ∈ F, Mem d r.box p → Mem d q.box p → r = q := by
    intro r hr q hq h1 h2
    by_contra hcon
    obtain ⟨i, hi, rfl⟩ := List.mem_iff_getElem.1 hr
    obtain ⟨j, hj, rfl⟩ := List.mem_iff_getElem.1 hq
    have hp := List.pairwise_iff_getElem.1 hF
    rcases Nat.lt_trichotomy i j with g | g | g
    · exact hp i j hi hj g p ⟨h1, h2⟩
    · subst g; exact hcon rfl
    · exact hp j i hj hi g p ⟨h2, h1⟩
  have hOK : SrcOK d F := by
    refine ⟨hne, ?_⟩
    intro r hr q hq ht p' hp'
    by_cases e : r = q
    · subst e; exact ht rfl
    · obtain ⟨i, hi, rfl⟩ := List.mem_iff_getElem.1 hr
      obtain ⟨j, hj, rfl⟩ := List.mem_iff_getElem.1 hq
      have hp := List.pairwise_iff_getElem.1 hF
      rcases Nat.lt_trichotomy i j with g | g | g
      · exact hp i j hi hj g p' hp'
      · subst g; exact e rfl
      · exact hp j i hj hi g p' ⟨hp'.2, hp'.1⟩
  -- counts
  have eloc : ((local2 d F T me).filter (fun o => decide (Mem d o.1 p))).map (fun _ => me) =
      List.replicate (((ownRanges F me).filter (fun r => decide (Mem d r.box p))).length *
        ((ownRanges T me).filter (fun r => decide (Mem d r.box p))).length) me := by
    rw [map_const_eq, ← nested_count]
    congr 1
    have : (ownRanges F me).flatMap (fun r => (ownRanges T me).flatMap (fun q => (r.box.intersect d q.box).toList)) =
        (local2 d F T me).map (·.1) := by
      unfold local2
      rw [List.map_flatMap]
      unfold List.flatMap
      congr 1
      apply List.map_congr_left
      intro r _
      rw [List.map_filterMap, filterMap_single]
      unfold List.flatMap
      congr 1
      apply List.map_congr_left
      intro q _
      cases r.box.intersect d q.box <;> rfl
    rw [this, List.filter_map, List.length_map]
    rfl
  have erec : ((recvs2 d n F T me).filter (fun m => decide (Mem d m.2.1 p))).map (fun m => m.1) =
      ((List.range n).filter (fun t => decide (t ≠ me))).flatMap (fun t =>
        List.replicate (((ownRanges T me).filter (fun r => decide (Mem d r.box p))).length *
          ((ownRanges F t).filter (fun r => decide (Mem d r.box p))).length) t) := by
    unfold recvs2
    rw [List.filter_flatMap, List.map_flatMap]
    unfold List.flatMap
    congr 1
    apply List.map_congr_left
    intro t ht
    rw [List.mem_filter, decide_eq_true_eq] at ht
    rw [List.filter_map, List.map_map]
    have e2 := recv2_eq (T := T) hOK ht.2
    have : ((recv2 d F T me t).filter ((fun m : Nat × Box × Int => decide (Mem d m.2.1 p)) ∘ fun m => (t, m))).length =
        ((ownRanges T me).filter (fun r => decide (Mem d r.box p))).length *
          ((ownRanges F t).filter (fun r => decide (Mem d r.box p))).length := by
      have hsw : (((recv2 d F T me t).map (·.1)).filter (fun c => decide (Mem d c p))).length =
          ((ownRanges F t).filter (fun r => decide (Mem d r.box p))).length *
          ((ownRanges T me).filter (fun r => decide (Mem d r.box p))).length := by
        rw [e2, ← nested_count]
        exact ((flatMap_swap _ _ _).filter _).length_eq.symm
      rw [List.filter_map, List.length_map] at hsw
      rw [Nat.mul_comm, ← hsw]
      rfl
    rw [← this]
    exact map_const_eq _ _
  unfold sources2
  rw [eloc, erec]
  constructor
  · intro r hr q hq hqm h1 h2
    have cT : ((ownRanges T me).filter (fun r => decide (Mem d r.box p))).length = 1 := by
      have : (ownRanges T me).Pairwise (fun a b => ¬ ((fun r : TR => decide (Mem d r.box p)) a = true ∧
          (fun r : TR => decide (Mem d r.box p)) b = true)) := by
        refine List.Pairwise.imp_of_mem ?_ (hT.filter _)
        intro a b ha hb hab
        rw [mem_ownRanges] at ha hb
        simp only [decide_eq_true_eq]
        exact hab (ha.2.trans hb.2.symm) p
      rw [filter_one this q (mem_ownRanges.2 ⟨hq, hqm⟩) (by simpa using h2)]
      rfl
    have cF : ∀ t, ((ownRanges F t).filter (fun r => decide (Mem d r.box p))).length = if t = r.task then 1 else 0 := by
      intro t
      by_cases e : t = r.task
      · subst e
        have : (ownRanges F r.task).Pairwise (fun a b => ¬ ((fun r : TR => decide (Mem d r.box p)) a = true ∧
            (fun r : TR => decide (Mem d r.box p)) b = true)) := by
          refine List.Pairwise.imp ?_ (hF.filter _)
          intro a b hab
          simp only [decide_eq_true_eq]
          exact hab p
        rw [filter_one this r (mem_ownRanges.2 ⟨hr, rfl⟩) (by simpa using h1)]
        simp
      · rw [if_neg e]
        rw [List.length_eq_zero_iff, List.filter_eq_nil_iff]
        intro a ha hP
        rw [mem_ownRanges] at ha
        rw [decide_eq_true_eq] at hP
        have := hF' a ha.1 r hr hP h1
        subst this
        exact e ha.2.symm
    simp only [cT, cF, Nat.one_mul, Nat.mul_one]
    by_cases e : me = r.task
    · subst e
      simp only [if_true, List.replicate_one]
      have : ((List.range n).filter (fun t => decide (t ≠ r.task))).flatMap (fun t =>
          List.replicate (if t = r.task then 1 else 0) t) = [] := by
        rw [List.flatMap_eq_nil_iff]
        intro t ht
        rw [List.mem_filter, decide_eq_true_eq] at ht
        rw [if_neg ht.2]; rfl
      rw [this]; rfl
    · rw [if_neg e]
      simp only [List.replicate_zero, List.nil_append]
      have hmem : r.task ∈ (List.range n).filter (fun t => decide (t ≠ me)) := by
        simp [hn r hr, Ne.symm e]
      have hnd : ((List.range n).filter (fun t => decide (t ≠ me))).Nodup := List.nodup_range.filter _
      generalize (List.range n).filter (fun t => decide (t ≠ me)) = ts at *
      have : ∀ ts : List Nat, ts.flatMap (fun t => List.replicate (if t = r.task then 1 else 0) t) =
          List.replicate (ts.count r.task) r.task := by
        intro ts
        induction ts with
        | nil => rfl
        | cons u ts ih =>
          rw [List.flatMap_cons, ih]
          by_cases g : u = r.task
          · subst g; simp [List.replicate_succ]
          · simp [g]
      rw [this, List.count_eq_one_of_mem hnd hmem]
      rfl
  · intro h0
    have z : ∀ t, ((ownRanges T me).filter (fun r => decide (Mem d r.box p))).length *
        ((ownRanges F t).filter (fun r => decide (Mem d r.box p))).length = 0 := by
      intro t
      rcases h0 with h0 | h0
      · have : (ownRanges F t).filter (fun r => decide (Mem d r.box p)) = [] := by
          rw [List.filter_eq_nil_iff]
          intro a ha
          rw [mem_ownRanges] at ha
          simpa using h0 a ha.1
        rw [this]; simp
      · have : (ownRanges T me).filter (fun r => decide (Mem d r.box p)) = [] := by
          rw [List.filter_eq_nil_iff]
          intro a ha
          rw [mem_ownRanges] at ha
          simpa using h0 a ha.1 ha.2
        rw [this]; simp
    rw [Nat.mul_comm, z]
    simp only [List.replicate_zero, List.nil_append, z]
    rw [List.flatMap_eq_nil_iff]
    intro t _; rfl

/-- **C19 (maps).** The range of every operation lies in a range of the source
and in one of the target partitioning, of the processes involved, and the map
numbers are those of these ranges. -/
theorem C19_maps {d : Dims} {n : Nat} {F T : List TR} {me : Nat} :
    (∀ b i o, (b, i, o) ∈ local2 d F T me →
      (∃ r ∈ F, r.task = me ∧ r.mapNo = i ∧ ∀ p, Mem d b p → Mem d r.box p) ∧
      (∃ q ∈ T, q.task = me ∧ q.mapNo = o ∧ ∀ p, Mem d b p → Mem d q.box p)) ∧
    (∀ t b m, (t, b, m) ∈ recvs2 d n F T me → t ≠ me ∧ t < n ∧
      (∃ r ∈ F, r.task = t ∧ ∀ p, Mem d b p → Mem d r.box p) ∧
      (∃ q ∈ T, q.task = me ∧ q.mapNo = m ∧ ∀ p, Mem d b p → Mem d q.box p)) ∧
    (∀ t b m, (t, b, m) ∈ sends2 d n F T me → t ≠ me ∧ t < n ∧
      (∃ r ∈ F, r.task = me ∧ r.mapNo = m ∧ ∀ p, Mem d b p → Mem d r.box p) ∧
      (∃ q ∈ T, q.task = t ∧ ∀ p, Mem d b p → Mem d q.box p)) := by
  refine ⟨?_, ?_, ?_⟩
  · intro b i o h
    unfold local2 at h
    simp only [List.mem_flatMap, List.mem_filterMap, Option.map_eq_some_iff] at h
    obtain ⟨r, hr, q, hq, c, hc, e⟩ := h
    cases e
    rw [mem_ownRanges] at hr hq
    exact ⟨⟨r, hr.1, hr.2, rfl, fun p hp => ((intersect_mem d _ _ _ hc p).1 hp).1⟩,
      ⟨q, hq.1, hq.2, rfl, fun p hp => ((intersect_mem d _ _ _ hc p).1 hp).2⟩⟩
  · intro t b m h
    unfold recvs2 recv2 at h
    simp only [List.mem_flatMap, List.mem_map, List.mem_filter, List.mem_range, decide_eq_true_eq] at h
    obtain ⟨t', ⟨ht, hne⟩, m', ⟨q, hq, hm⟩, e⟩ := h
    cases e
    split at hm
    · cases hm
    · simp only [List.mem_filterMap, Option.map_eq_some_iff] at hm
      obtain ⟨r, hr, c, hc, e⟩ := hm
      cases e
      rw [mem_ownRanges] at hr hq
      exact ⟨hne, ht, ⟨r, hr.1, hr.2, fun p hp => ((intersect_mem d _ _ _ hc p).1 hp).1⟩,
        ⟨q, hq.1, hq.2, rfl, fun p hp => ((intersect_mem d _ _ _ hc p).1 hp).2⟩⟩
  · intro t b m h
    unfold sends2 send2 at h
    simp only [List.mem_flatMap, List.mem_map, List.mem_filter, List.mem_range, decide_eq_true_eq] at h
    obtain ⟨t', ⟨ht, hne⟩, m', ⟨r, hr, hm⟩, e⟩ := h
    cases e
    split at hm
    · cases hm
    · simp only [List.mem_filterMap, Option.map_eq_some_iff] at hm
      obtain ⟨q, hq, c, hc, e⟩ := hm
      cases e
      rw [mem_ownRanges] at hr hq
      exact ⟨hne, ht, ⟨r, hr.1, hr.2, rfl, fun p hp => ((intersect_mem d _ _ _ hc p).1 hp).1⟩,
        ⟨q, hq.1, hq.2, fun p hp => ((intersect_mem d _ _ _ hc p).1 hp).2⟩⟩

/-! ### Where the code fails -/

/-- 2d range. -/
def bx (a b c e : Int) : Box := ⟨⟨a, c, 0⟩, ⟨b, e, 0⟩⟩

/-- From everything on both processes to halves: process 1 expects its half from
process 0, which does not send it. -/
theorem C19_missing_message :
    let F : List TR := [⟨0, 0, bx 0 4 0 4, 0⟩, ⟨1, 0, bx 0 4 0 4, 0⟩]
    let T : List TR := [⟨0, 0, bx 0 2 0 4, 0⟩, ⟨1, 0, bx 2 4 0 4, 0⟩]
    msgsWith 1 (sends2 .d2 2 F T 0) = [] ∧ msgsWith 0 (recvs2 .d2 2 F T 1) = [bx 2 4 0 4] := by
  decide

/-- Also the other direction: with partial overlap in the source, a message is
sent which is not expected. -/
theorem C19_extra_message :
    let F : List TR := [⟨0, 0, bx 0 4 0 4, 0⟩, ⟨1, 0, bx 0 2 0 4, 0⟩]
    let T : List TR := [⟨0, 0, bx 2 4 0 4, 0⟩, ⟨1, 0, bx 0 2 0 4, 0⟩]
    msgsWith 1 (sends2 .d2 2 F T 0) = [bx 0 2 0 4] ∧ msgsWith 0 (recvs2 .d2 2 F T 1) = [] := by
  decide

/-- Left/right halves of process 0 become top/bottom halves of process 1: four
messages, in different order on both sides. -/
theorem C19_order_differs :
    let F : List TR := [⟨0, 0, bx 0 2 0 4, 0⟩, ⟨0, 0, bx 2 4 0 4, 0⟩]
    let T : List TR := [⟨1, 0, bx 0 4 0 2, 0⟩, ⟨1, 0, bx 0 4 2 4, 0⟩]
    msgsWith 1 (sends2 .d2 2 F T 0) = [bx 0 2 0 2, bx 0 2 2 4, bx 2 4 0 2, bx 2 4 2 4] ∧
    msgsWith 0 (recvs2 .d2 2 F T 1) = [bx 0 2 0 2, bx 2 4 0 2, bx 0 2 2 4, bx 2 4 2 4] := by
  decide

/-- A case meeting the hypotheses: columns to rows on two processes. -/
example : let F : List TR := [⟨0, 0, bx 0 2 0 4, 0⟩, ⟨1, 0, bx 2 4 0 4, 0⟩]
    let T : List TR := [⟨0, 0, bx 0 4 0 2, 0⟩, ⟨1, 0, bx 0 4 2 4, 0⟩]
    SrcOK .d2 F ∧ msgsWith 1 (sends2 .d2 2 F T 0) = [bx 0 2 2 4] ∧ sources2 .d2 2 F T 1 ⟨1, 3, 0⟩ = [0] := by
  refine ⟨⟨?_, ?_⟩, by decide, by decide⟩
  · intro r hr
    refine ⟨r.box.lo, ?_⟩
    revert r; decide
  · intro r hr q hq h p hp
    simp only [List.mem_cons, List.not_mem_nil, or_false] at hr hq
    rcases hr with rfl | rfl <;> rcases hq with rfl | rfl <;> simp only [mem_d2, bx] at hp <;>
      first | (exact h rfl) | omega

/-- Operations with different maps. -/
example : let F : List TR := [⟨0, 0, bx 0 2 0 4, 0⟩, ⟨0, 1, bx 2 4 0 4, 1⟩]
    let T : List TR := [⟨0, 0, bx 2 4 0 2, 0⟩, ⟨1, 2, bx 0 4 2 4, 3⟩]
    local2 .d2 F T 0 = [(bx 2 4 0 2, 1, 0)] ∧ sends2 .d2 2 F T 0 = [(1, bx 0 2 2 4, 0), (1, bx 2 4 2 4, 1)] ∧
    recvs2 .d2 2 F T 1 = [(0, bx 0 2 2 4, 3), (0, bx 2 4 2 4, 3)] := by
  decide

end Laik
