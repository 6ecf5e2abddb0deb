import Verif.Model.KvsOps
/-!
# Lemmas for merging journals
-/

namespace Laik

/-- Strictly sorted by key. -/
def SS (l : List (Bytes × Bytes)) : Prop := l.Pairwise (fun a b => strcmp a.1 b.1 < 0)

/-- No key with different values. -/
def NoConf (a b : List (Bytes × Bytes)) : Prop := ∀ k v w, (k, v) ∈ a → (k, w) ∈ b → v = w

/-- A journal written in order holds `l`. -/
structure MRep (c : Changes) (l : List (Bytes × Bytes)) : Prop where
  off : c.off = jOff l
  data : c.data = jData l
  ent : c.ent = l.map toEnt

theorem chAddEnt_toEnt (c : Changes) (k v : Bytes) : chAddEnt c (toEnt (k, v)) = chAppend c k v true := rfl

theorem merge_cc (x y : Bytes × Bytes) (a b : List (Bytes × Bytes)) (c : Changes) :
    chMergeGo ((x :: a).map toEnt) ((y :: b).map toEnt) c =
      if strcmp x.1 y.1 < 0 then (chAddEnt c (toEnt x)).bind (chMergeGo (a.map toEnt) ((y :: b).map toEnt))
      else if strcmp x.1 y.1 > 0 then (chAddEnt c (toEnt y)).bind (chMergeGo ((x :: a).map toEnt) (b.map toEnt))
      else if x.2.length ≠ y.2.length ∨ strncmpEq x.2 y.2 = false then none
      else (chAddEnt c (toEnt x)).bind (chMergeGo (a.map toEnt) (b.map toEnt)) := by
  rw [List.map_cons, List.map_cons, chMergeGo]
  rfl

theorem merge_cn (x : Bytes × Bytes) (a : List (Bytes × Bytes)) (c : Changes) :
    chMergeGo ((x :: a).map toEnt) (([] : List (Bytes × Bytes)).map toEnt) c =
      (chAddEnt c (toEnt x)).bind (chMergeGo (a.map toEnt) (([] : List (Bytes × Bytes)).map toEnt)) := by
  rw [List.map_cons, List.map_nil, chMergeGo]

theorem merge_nc (x : Bytes × Bytes) (a : List (Bytes × Bytes)) (c : Changes) :
    chMergeGo (([] : List (Bytes × Bytes)).map toEnt) ((x :: a).map toEnt) c =
      (chAddEnt c (toEnt x)).bind (chMergeGo (([] : List (Bytes × Bytes)).map toEnt) (a.map toEnt)) := by
  rw [List.map_cons, List.map_nil, chMergeGo]

theorem merge_nn (c : Changes) :
    chMergeGo (([] : List (Bytes × Bytes)).map toEnt) (([] : List (Bytes × Bytes)).map toEnt) c = some c := by
  rw [List.map_nil, chMergeGo]

theorem chAddEnt_iff {c : Changes} {l} (h : MRep c l) (k v : Bytes) :
    (∀ y, l.getLast? = some y → strcmp y.1 k < 0) → 2 * l.length + 3 ≤ c.offSize →
    (jData l).length + (k.length + 1) + v.length ≤ c.dataSize → l.length < c.entSize →
    ∃ c', chAddEnt c (toEnt (k, v)) = some c' ∧ MRep c' (l ++ [(k, v)]) ∧ c'.offSize = c.offSize ∧
      c'.dataSize = c.dataSize ∧ c'.entSize = c.entSize := by
  intro h1 h2 h3 h4
  rw [chAddEnt_toEnt]
  unfold chAppend
  simp only [if_true]
  rw [h.off, h.data]
  rw [if_pos ⟨by rw [jOff_start_length]; omega, h3, jOff_start_last l⟩, if_pos]
  · refine ⟨_, rfl, ⟨(jOff_append l k v).symm, (jData_snoc l k v).symm, ?_⟩, rfl, rfl, rfl⟩
    simp [h.ent, toEnt]
  · refine ⟨?_, by rw [h.ent, List.length_map]; exact h4⟩
    intro e he
    rw [h.ent, List.getLast?_map, Option.mem_def, Option.map_eq_some_iff] at he
    obtain ⟨y, hy, rfl⟩ := he
    exact h1 y hy

theorem chAddEnt_some {c c' : Changes} {l} (h : MRep c l) {x : Bytes × Bytes} (hs : chAddEnt c (toEnt x) = some c') :
    (∀ y, l.getLast? = some y → strcmp y.1 x.1 < 0) ∧ MRep c' (l ++ [x]) := by
  obtain ⟨k, v⟩ := x
  rw [chAddEnt_toEnt] at hs
  unfold chAppend at hs
  simp only [if_true] at hs
  rw [h.off, h.data] at hs
  have ho := jOff_append l k v
  generalize (if (jOff l).length = 0 then [0] else jOff l) = O at hs ho
  split at hs
  · split at hs
    · rename_i h1 h2
      cases hs
      refine ⟨?_, ⟨ho.symm, (jData_snoc l k v).symm, by simp [h.ent, toEnt]⟩⟩
      intro y hy
      refine h2.1 (toEnt y) ?_
      rw [h.ent, List.getLast?_map, hy]
      rfl
    · cases hs
  · cases hs

theorem SS.tail {x} {l : List (Bytes × Bytes)} (h : SS (x :: l)) : SS l := (List.pairwise_cons.1 h).2

theorem SS.head {x} {l : List (Bytes × Bytes)} (h : SS (x :: l)) : ∀ y ∈ l, strcmp x.1 y.1 < 0 :=
  (List.pairwise_cons.1 h).1

theorem SS.snoc {x} {l : List (Bytes × Bytes)} (h : SS l) (hx : ∀ y ∈ l, strcmp y.1 x.1 < 0) : SS (l ++ [x]) := by
  unfold SS
  rw [List.pairwise_append]
  exact ⟨h, by simp, fun a ha b hb => by rw [List.mem_singleton] at hb; subst hb; exact hx a ha⟩

theorem getLast_mem' {l : List (Bytes × Bytes)} {y} (h : l.getLast? = some y) : y ∈ l := List.mem_of_getLast? h

theorem strncmpEq_self : ∀ v, strncmpEq v v = true
  | [] => rfl
  | a :: v => by
    unfold strncmpEq
    simp [strncmpEq_self v]

theorem jData_len_cons (x : Bytes × Bytes) (l) :
    (jData (x :: l)).length = (x.1.length + 1) + x.2.length + (jData l).length := by
  obtain ⟨k, v⟩ := x
  rw [jData_cons]
  simp only [List.length_append, List.length_singleton]

theorem jData_len_snoc (x : Bytes × Bytes) (l) :
    (jData (l ++ [x])).length = (jData l).length + ((x.1.length + 1) + x.2.length) := by
  obtain ⟨k, v⟩ := x
  rw [jData_snoc]
  simp only [List.length_append, List.length_singleton]
  omega

/-- Enough space. -/
def Caps (c : Changes) (n d : Nat) : Prop := (n = 0 ∨ 2 * n + 1 ≤ c.offSize) ∧ d ≤ c.dataSize ∧ n ≤ c.entSize

theorem chMergeGo_spec : ∀ (a b l : List (Bytes × Bytes)) (c : Changes), SS a → SS b → SS l →
    (∀ x ∈ l, ∀ y ∈ a ++ b, strcmp x.1 y.1 < 0) → NoConf a b → MRep c l →
    Caps c (l.length + a.length + b.length) ((jData l).length + (jData a).length + (jData b).length) →
    ∃ c' m, chMergeGo (a.map toEnt) (b.map toEnt) c = some c' ∧ MRep c' (l ++ m) ∧ SS (l ++ m) ∧
      (∀ x, x ∈ m ↔ x ∈ a ∨ x ∈ b)
  | [], [], l, c, _, _, hl, _, _, hm, _ => ⟨c, [], merge_nn c, by simpa using hm, by simpa using hl, by simp⟩
  | x :: a, [], l, c, ha, hb, hl, hlt, hn, hm, hc => by
    have hx : ∀ y ∈ l, strcmp y.1 x.1 < 0 := fun y hy => hlt y hy x (by simp)
    simp only [Caps, List.length_cons, jData_len_cons] at hc
    obtain ⟨c1, h1, h2, h3, h4, h5⟩ := chAddEnt_iff hm x.1 x.2 (fun y hy => hx y (getLast_mem' hy)) (by omega) (by omega)
      (by omega)
    obtain ⟨c', m, g1, g2, g3, g4⟩ := chMergeGo_spec a [] (l ++ [x]) c1 ha.tail hb (hl.snoc hx) (by
        intro y hy z hz
        rcases List.mem_append.1 hy with hy | hy
        · exact hlt y hy z (by simp at hz; simp [hz])
        · rw [List.mem_singleton] at hy
          subst hy
          exact ha.head z (by simpa using hz)) (fun _ _ _ _ h => by simp at h) h2 (by
        simp only [Caps, List.length_append, List.length_cons, List.length_nil, jData_len_snoc, h3, h4, h5]
        simp only [List.length_nil] at hc
        omega)
    refine ⟨c', x :: m, ?_, by simpa using g2, by simpa using g3, ?_⟩
    · rw [merge_cn, h1, Option.bind_some]
      exact g1
    · intro y
      rw [List.mem_cons, List.mem_cons, g4]
      tauto
  | [], x :: b, l, c, ha, hb, hl, hlt, hn, hm, hc => by
    have hx : ∀ y ∈ l, strcmp y.1 x.1 < 0 := fun y hy => hlt y hy x (by simp)
    simp only [Caps, List.length_cons, jData_len_cons] at hc
    obtain ⟨c1, h1, h2, h3, h4, h5⟩ := chAddEnt_iff hm x.1 x.2 (fun y hy => hx y (getLast_mem' hy)) (by omega) (by omega)
      (by omega)
    obtain ⟨c', m, g1, g2, g3, g4⟩ := chMergeGo_spec [] b (l ++ [x]) c1 ha hb.tail (hl.snoc hx) (by
        intro y hy z hz
        rcases List.mem_append.1 hy with hy | hy
        · exact hlt y hy z (by simp at hz; simp [hz])
        · rw [List.mem_singleton] at hy
          subst hy
          exact hb.head z (by simpa using hz)) (fun _ _ _ h _ => by simp at h) h2 (by
        simp only [Caps, List.length_append, List.length_cons, List.length_nil, jData_len_snoc, h3, h4, h5]
        simp only [List.length_nil] at hc
        omega)
    refine ⟨c', x :: m, ?_, by simpa using g2, by simpa using g3, ?_⟩
    · rw [merge_nc, h1, Option.bind_some]
      exact g1
    · intro y
      rw [List.mem_cons, List.mem_cons, g4]
      tauto
  | x :: a, y :: b, l, c, ha, hb, hl, hlt, hn, hm, hc => by
    have hx : ∀ z ∈ l, strcmp z.1 x.1 < 0 := fun z hz => hlt z hz x (by simp)
    have hy : ∀ z ∈ l, strcmp z.1 y.1 < 0 := fun z hz => hlt z hz y (by simp)
    simp only [Caps, List.length_cons, jData_len_cons] at hc
    rcases strcmp_tri x.1 y.1 with hxy | hxy | hxy
    · obtain ⟨c1, h1, h2, h3, h4, h5⟩ := chAddEnt_iff hm x.1 x.2 (fun z hz => hx z (getLast_mem' hz)) (by omega) (by omega)
        (by omega)
      obtain ⟨c', m, g1, g2, g3, g4⟩ := chMergeGo_spec a (y :: b) (l ++ [x]) c1 ha.tail hb (hl.snoc hx) (by
          intro u hu z hz
          rcases List.mem_append.1 hu with hu | hu
          · exact hlt u hu z (List.mem_cons_of_mem _ hz)
          · rw [List.mem_singleton] at hu
            subst hu
            rcases List.mem_append.1 hz with hz | hz
            · exact ha.head z hz
            · rcases List.mem_cons.1 hz with rfl | hz
              · exact hxy
              · exact strcmp_trans hxy (hb.head z hz))
          (fun k v w hv hw => hn k v w (List.mem_cons_of_mem _ hv) hw) h2 (by
          simp only [Caps, List.length_append, List.length_cons, List.length_nil, jData_len_snoc, h3, h4, h5,
            jData_len_cons]
          omega)
      refine ⟨c', x :: m, ?_, by simpa using g2, by simpa using g3, ?_⟩
      · rw [merge_cc, if_pos hxy, h1, Option.bind_some]
        exact g1
      · intro z
        rw [List.mem_cons, g4]
        simp only [List.mem_cons]
        tauto
    · have hv : x.2 = y.2 := hn x.1 x.2 y.2 (by simp) (by rw [hxy]; simp)
      have hxe : x = y := Prod.ext hxy hv
      subst hxe
      obtain ⟨c1, h1, h2, h3, h4, h5⟩ := chAddEnt_iff hm x.1 x.2 (fun z hz => hx z (getLast_mem' hz)) (by omega) (by omega)
        (by omega)
      obtain ⟨c', m, g1, g2, g3, g4⟩ := chMergeGo_spec a b (l ++ [x]) c1 ha.tail hb.tail (hl.snoc hx) (by
          intro u hu z hz
          rcases List.mem_append.1 hu with hu | hu
          · refine hlt u hu z ?_
            rcases List.mem_append.1 hz with hz | hz
            · exact List.mem_append.2 (.inl (List.mem_cons_of_mem _ hz))
            · exact List.mem_append.2 (.inr (List.mem_cons_of_mem _ hz))
          · rw [List.mem_singleton] at hu
            subst hu
            rcases List.mem_append.1 hz with hz | hz
            · exact ha.head z hz
            · exact hb.head z hz)
          (fun k v w hv hw => hn k v w (List.mem_cons_of_mem _ hv) (List.mem_cons_of_mem _ hw)) h2 (by
          simp only [Caps, List.length_append, List.length_cons, List.length_nil, jData_len_snoc, h3, h4, h5]
          omega)
      refine ⟨c', x :: m, ?_, by simpa using g2, by simpa using g3, ?_⟩
      · rw [merge_cc, if_neg (by rw [strcmp_self]; omega), if_neg (by rw [strcmp_self]; omega), if_neg (by
          simp [strncmpEq_self]), h1, Option.bind_some]
        exact g1
      · intro z
        rw [List.mem_cons, g4]
        simp only [List.mem_cons]
        tauto
    · obtain ⟨c1, h1, h2, h3, h4, h5⟩ := chAddEnt_iff hm y.1 y.2 (fun z hz => hy z (getLast_mem' hz)) (by omega) (by omega)
        (by omega)
      obtain ⟨c', m, g1, g2, g3, g4⟩ := chMergeGo_spec (x :: a) b (l ++ [y]) c1 ha hb.tail (hl.snoc hy) (by
          intro u hu z hz
          rcases List.mem_append.1 hu with hu | hu
          · refine hlt u hu z ?_
            rcases List.mem_append.1 hz with hz | hz
            · exact List.mem_append.2 (.inl hz)
            · exact List.mem_append.2 (.inr (List.mem_cons_of_mem _ hz))
          · rw [List.mem_singleton] at hu
            subst hu
            rcases List.mem_append.1 hz with hz | hz
            · rcases List.mem_cons.1 hz with rfl | hz
              · exact hxy
              · exact strcmp_trans hxy (ha.head z hz)
            · exact hb.head z hz)
          (fun k v w hv hw => hn k v w hv (List.mem_cons_of_mem _ hw)) h2 (by
          simp only [Caps, List.length_append, List.length_cons, List.length_nil, jData_len_snoc, h3, h4, h5,
            jData_len_cons]
          omega)
      refine ⟨c', y :: m, ?_, by simpa using g2, by simpa using g3, ?_⟩
      · rw [merge_cc, if_neg (strcmp_asymm hxy), if_pos ((strcmp_pos _ _).2 hxy), h1, Option.bind_some]
        exact g1
      · intro z
        rw [List.mem_cons, g4]
        simp only [List.mem_cons]
        tauto
termination_by a b => a.length + b.length

/-- A sorted journal as input of merging. -/
structure SrcRep (c : Changes) (a : List (Bytes × Bytes)) : Prop where
  ent : c.ent = a.map toEnt
  sorted : SS a
  off : c.off.length = if a = [] then 0 else 2 * a.length + 1
  data : c.data.length = (jData a).length

theorem MRep.src {c l} (h : MRep c l) (hs : SS l) : SrcRep c l :=
  ⟨h.ent, hs, by rw [h.off, jOff_length], by rw [h.data]⟩

theorem chSetSize_clear (c : Changes) : chSetSize c [] [] = some { c with off := [], data := [], ent := [] } := by
  unfold chSetSize
  rw [if_pos]
  exact ⟨.inl rfl, Nat.zero_le _, Nat.zero_le _, Nat.zero_le _⟩

theorem chMerge_start (dst c1 c2 : Changes) :
    ∃ d, MRep d [] ∧ c1.off.length + c2.off.length ≤ d.offSize ∧ c1.data.length + c2.data.length ≤ d.dataSize ∧
      (c1.off.length + c2.off.length) / 2 ≤ d.entSize ∧ chMerge dst c1 c2 = chMergeGo c1.ent c2.ent d := by
  unfold chMerge
  rw [chSetSize_clear]
  obtain ⟨d, hd⟩ := ensureSize_some (c := { dst with off := [], data := [], ent := [] }) rfl
    (c1.off.length + c2.off.length) (c1.data.length + c2.data.length)
  obtain ⟨e1, e2, e3, e4, e5, _, _, e8, _⟩ := ensureSize_caps hd
  refine ⟨d, ⟨e1, e2, e3⟩, e4, e5, e8, ?_⟩
  simp only [Option.bind_eq_bind, Option.bind_some, hd]

theorem chMerge_spec (dst : Changes) {c1 c2 : Changes} {a b} (h1 : SrcRep c1 a) (h2 : SrcRep c2 b) (hn : NoConf a b) :
    ∃ d m, chMerge dst c1 c2 = some d ∧ MRep d m ∧ SS m ∧ (∀ x, x ∈ m ↔ x ∈ a ∨ x ∈ b) := by
  obtain ⟨d, e1, e2, e3, e4, e5⟩ := chMerge_start dst c1 c2
  rw [e5, h1.ent, h2.ent]
  obtain ⟨c', m, g1, g2, g3, g4⟩ := chMergeGo_spec a b [] d h1.sorted h2.sorted .nil (by simp) hn e1 (by
    have k1 := h1.off
    have k2 := h2.off
    have k3 := h1.data
    have k4 := h2.data
    have hj : (jData ([] : List (Bytes × Bytes))).length = 0 := rfl
    simp only [Caps, List.length_nil, hj]
    rcases List.eq_nil_or_concat a with ha | ⟨_, _, ha⟩
    · rcases List.eq_nil_or_concat b with hb | ⟨_, _, hb⟩
      · subst ha; subst hb
        exact ⟨.inl rfl, Nat.zero_le _, Nat.zero_le _⟩
      · rw [if_neg (by rw [hb]; simp)] at k2
        subst ha
        simp only [if_true, List.length_nil] at *
        omega
    · rw [if_neg (by rw [ha]; simp)] at k1
      rcases List.eq_nil_or_concat b with hb | ⟨_, _, hb⟩
      · subst hb
        simp only [if_true, List.length_nil] at *
        omega
      · rw [if_neg (by rw [hb]; simp)] at k2
        omega)
  exact ⟨c', m, g1, g2, g3, g4⟩

theorem ss_ext : ∀ {a b : List (Bytes × Bytes)}, SS a → SS b → (∀ x, x ∈ a ↔ x ∈ b) → a = b
  | [], [], _, _, _ => rfl
  | [], y :: b, _, _, h => by have := (h y).2 List.mem_cons_self; cases this
  | x :: a, [], _, _, h => by have := (h x).1 List.mem_cons_self; cases this
  | x :: a, y :: b, ha, hb, h => by
    have hxy : x = y := by
      have h1 := (h x).1 List.mem_cons_self
      have h2 := (h y).2 List.mem_cons_self
      rcases List.mem_cons.1 h1 with h1 | h1
      · exact h1
      · rcases List.mem_cons.1 h2 with h2 | h2
        · exact h2.symm
        · exact absurd (ha.head y h2) (strcmp_asymm (hb.head x h1))
    subst hxy
    congr 1
    refine ss_ext ha.tail hb.tail ?_
    intro z
    have hz := h z
    rw [List.mem_cons, List.mem_cons] at hz
    constructor
    · intro hm
      rcases hz.1 (.inr hm) with rfl | h'
      · exact absurd rfl (strcmp_neg_ne (ha.head z hm))
      · exact h'
    · intro hm
      rcases hz.2 (.inr hm) with rfl | h'
      · exact absurd rfl (strcmp_neg_ne (hb.head z hm))
      · exact h'

/-! ## When merging aborts -/

/-- The comparison of values in merging sees the difference. -/
def SeenDiff (v w : Bytes) : Prop := v.length ≠ w.length ∨ strncmpEq v w = false

theorem chMergeGo_conflict : ∀ (a b : List (Bytes × Bytes)) (c : Changes), SS a → SS b →
    (∃ k v w, (k, v) ∈ a ∧ (k, w) ∈ b ∧ SeenDiff v w) → chMergeGo (a.map toEnt) (b.map toEnt) c = none
  | [], _, _, _, _, ⟨_, _, _, h, _⟩ => by cases h
  | x :: a, [], _, _, _, ⟨_, _, _, _, h, _⟩ => by cases h
  | x :: a, y :: b, c, ha, hb, ⟨k, v, w, hv, hw, hd⟩ => by
    rw [merge_cc]
    split
    · rename_i hxy
      have : (k, v) ∈ a := by
        rcases List.mem_cons.1 hv with rfl | hv
        · exfalso
          rcases List.mem_cons.1 hw with rfl | hw
          · exact strcmp_neg_ne hxy rfl
          · exact strcmp_neg_ne (strcmp_trans hxy (hb.head _ hw)) rfl
        · exact hv
      cases hc : chAddEnt c (toEnt x) with
      | none => rfl
      | some c' => exact chMergeGo_conflict a (y :: b) c' ha.tail hb ⟨k, v, w, this, hw, hd⟩
    · split
      · rename_i hxy
        have hyx := (strcmp_pos _ _).1 hxy
        have : (k, w) ∈ b := by
          rcases List.mem_cons.1 hw with rfl | hw
          · exfalso
            rcases List.mem_cons.1 hv with rfl | hv
            · exact strcmp_neg_ne hyx rfl
            · exact strcmp_neg_ne (strcmp_trans hyx (ha.head _ hv)) rfl
          · exact hw
        cases hc : chAddEnt c (toEnt y) with
        | none => rfl
        | some c' => exact chMergeGo_conflict (x :: a) b c' ha hb.tail ⟨k, v, w, hv, this, hd⟩
      · rename_i h1 h2
        have hxy : x.1 = y.1 := strcmp_zero (by omega)
        split
        · rfl
        · rename_i h3
          have hk : k ≠ x.1 := by
            intro hk
            have e1 : (k, v) = x := by
              rcases List.mem_cons.1 hv with h | h
              · exact h
              · exact absurd hk.symm (strcmp_neg_ne (ha.head _ h))
            have e2 : (k, w) = y := by
              rcases List.mem_cons.1 hw with h | h
              · exact h
              · exact absurd (hxy ▸ hk.symm) (strcmp_neg_ne (hb.head _ h))
            subst e1
            subst e2
            exact h3 hd
          have h4 : (k, v) ∈ a := by
            rcases List.mem_cons.1 hv with h | h
            · subst h; exact absurd rfl hk
            · exact h
          have h5 : (k, w) ∈ b := by
            rcases List.mem_cons.1 hw with h | h
            · subst h; exact absurd hxy.symm hk
            · exact h
          cases hc : chAddEnt c (toEnt x) with
          | none => rfl
          | some c' => exact chMergeGo_conflict a b c' ha.tail hb.tail ⟨k, v, w, h4, h5, hd⟩
termination_by a b => a.length + b.length

/-- What merging writes is strictly sorted, whatever the input. -/
theorem chMergeGo_some : ∀ (a b l : List (Bytes × Bytes)) (c c' : Changes), MRep c l → SS l →
    chMergeGo (a.map toEnt) (b.map toEnt) c = some c' →
    ∃ m, MRep c' (l ++ m) ∧ SS (l ++ m) ∧ (∀ x ∈ m, x ∈ a ∨ x ∈ b) ∧ (∀ x ∈ a ++ b, ∃ y ∈ m, y.1 = x.1) ∧
      (a.map (·.1)).Nodup ∧ (b.map (·.1)).Nodup := by
  have snoc : ∀ {l : List (Bytes × Bytes)} {x}, SS l → (∀ y, l.getLast? = some y → strcmp y.1 x.1 < 0) → SS (l ++ [x]) := by
    intro l x hl h
    refine hl.snoc ?_
    intro y hy
    rcases List.eq_nil_or_concat l with rfl | ⟨l', z, rfl⟩
    · cases hy
    · have hz := h z (by simp)
      rw [List.concat_eq_append] at hy hl
      rcases List.mem_append.1 hy with hy | hy
      · unfold SS at hl
        rw [List.pairwise_append] at hl
        exact strcmp_trans (hl.2.2 y hy z (by simp)) hz
      · rw [List.mem_singleton] at hy
        subst hy
        exact hz
  have nodup : ∀ {l m : List (Bytes × Bytes)} {x : Bytes × Bytes} {a : List (Bytes × Bytes)}, SS ((l ++ [x]) ++ m) →
      (∀ z ∈ a, ∃ y ∈ m, y.1 = z.1) → (a.map (·.1)).Nodup → ((x :: a).map (·.1)).Nodup := by
    intro l m x a hs hm hn
    rw [List.map_cons, List.nodup_cons]
    refine ⟨?_, hn⟩
    intro hx
    rw [List.mem_map] at hx
    obtain ⟨z, hz, hzx⟩ := hx
    obtain ⟨y, hy, hyz⟩ := hm z hz
    unfold SS at hs
    rw [List.pairwise_append] at hs
    exact strcmp_neg_ne (hs.2.2 x (by simp) y hy) (by rw [hyz, hzx])
  intro a b
  induction h : a.length + b.length using Nat.strongRecOn generalizing a b with
  | ind n ih =>
    intro l c c' hm hl hc
    match a, b, h with
    | [], [], _ =>
      rw [merge_nn] at hc
      cases hc
      exact ⟨[], by simpa using hm, by simpa using hl, by simp, by simp, by simp, by simp⟩
    | x :: a, [], h =>
      rw [merge_cn, Option.bind_eq_some_iff] at hc
      obtain ⟨c1, h1, h2⟩ := hc
      obtain ⟨g1, g2⟩ := chAddEnt_some hm h1
      obtain ⟨m, k1, k2, k3, k4, k5, k6⟩ := ih (a.length + 0) (by simp at h ⊢; omega) a [] rfl (l ++ [x]) c1 c' g2 (snoc hl g1) h2
      refine ⟨x :: m, by simpa using k1, by simpa using k2, ?_, ?_, nodup k2 (fun z hz => k4 z (by simpa using hz)) k5, k6⟩
      · intro y hy
        rcases List.mem_cons.1 hy with rfl | hy
        · simp
        · have := k3 y hy
          simp only [List.mem_cons]
          tauto
      · intro y hy
        simp only [List.cons_append, List.mem_cons] at hy
        rcases hy with rfl | hy
        · exact ⟨y, by simp, rfl⟩
        · obtain ⟨z, hz, he⟩ := k4 y hy
          exact ⟨z, by simp [hz], he⟩
    | [], x :: b, h =>
      rw [merge_nc, Option.bind_eq_some_iff] at hc
      obtain ⟨c1, h1, h2⟩ := hc
      obtain ⟨g1, g2⟩ := chAddEnt_some hm h1
      obtain ⟨m, k1, k2, k3, k4, k5, k6⟩ := ih (0 + b.length) (by simp at h ⊢; omega) [] b rfl (l ++ [x]) c1 c' g2 (snoc hl g1) h2
      refine ⟨x :: m, by simpa using k1, by simpa using k2, ?_, ?_, k5, nodup k2 (fun z hz => k4 z (by simpa using hz)) k6⟩
      · intro y hy
        rcases List.mem_cons.1 hy with rfl | hy
        · simp
        · have := k3 y hy
          simp only [List.mem_cons]
          tauto
      · intro y hy
        simp only [List.nil_append, List.mem_cons] at hy
        rcases hy with rfl | hy
        · exact ⟨y, by simp, rfl⟩
        · obtain ⟨z, hz, he⟩ := k4 y (by simpa using hy)
          exact ⟨z, by simp [hz], he⟩
    | x :: a, y :: b, h =>
      rw [merge_cc] at hc
      split at hc
      · rw [Option.bind_eq_some_iff] at hc
        obtain ⟨c1, h1, h2⟩ := hc
        obtain ⟨g1, g2⟩ := chAddEnt_some hm h1
        obtain ⟨m, k1, k2, k3, k4, k5, k6⟩ := ih (a.length + (y :: b).length) (by simp at h ⊢; omega) a (y :: b) rfl
          (l ++ [x]) c1 c' g2 (snoc hl g1) h2
        refine ⟨x :: m, by simpa using k1, by simpa using k2, ?_, ?_,
          nodup k2 (fun z hz => k4 z (by simp [hz])) k5, k6⟩
        · intro z hz
          rcases List.mem_cons.1 hz with rfl | hz
          · simp
          · have := k3 z hz
            simp only [List.mem_cons] at this ⊢
            tauto
        · intro z hz
          rw [List.cons_append, List.mem_cons] at hz
          rcases hz with rfl | hz
          · exact ⟨z, by simp, rfl⟩
          · obtain ⟨u, hu, he⟩ := k4 z hz
            exact ⟨u, by simp [hu], he⟩
      · split at hc
        · rw [Option.bind_eq_some_iff] at hc
          obtain ⟨c1, h1, h2⟩ := hc
          obtain ⟨g1, g2⟩ := chAddEnt_some hm h1
          obtain ⟨m, k1, k2, k3, k4, k5, k6⟩ := ih ((x :: a).length + b.length) (by simp at h ⊢; omega) (x :: a) b rfl
            (l ++ [y]) c1 c' g2 (snoc hl g1) h2
          refine ⟨y :: m, by simpa using k1, by simpa using k2, ?_, ?_, k5,
            nodup k2 (fun z hz => k4 z (by simp [hz])) k6⟩
          · intro z hz
            rcases List.mem_cons.1 hz with rfl | hz
            · simp
            · have := k3 z hz
              simp only [List.mem_cons] at this ⊢
              tauto
          · intro z hz
            simp only [List.mem_append, List.mem_cons] at hz
            rcases hz with hz | rfl | hz
            · obtain ⟨u, hu, he⟩ := k4 z (by simp only [List.mem_append, List.mem_cons]; tauto)
              exact ⟨u, by simp [hu], he⟩
            · exact ⟨z, by simp, rfl⟩
            · obtain ⟨u, hu, he⟩ := k4 z (by simp only [List.mem_append, List.mem_cons]; tauto)
              exact ⟨u, by simp [hu], he⟩
        · split at hc
          · cases hc
          · rename_i hn1 hn2 _
            have hxy : x.1 = y.1 := strcmp_zero (by omega)
            rw [Option.bind_eq_some_iff] at hc
            obtain ⟨c1, h1, h2⟩ := hc
            obtain ⟨g1, g2⟩ := chAddEnt_some hm h1
            obtain ⟨m, k1, k2, k3, k4, k5, k6⟩ := ih (a.length + b.length) (by simp at h ⊢; omega) a b rfl
              (l ++ [x]) c1 c' g2 (snoc hl g1) h2
            have hny := nodup (a := b) k2 (fun z hz => k4 z (by simp [hz])) k6
            rw [List.map_cons, hxy] at hny
            refine ⟨x :: m, by simpa using k1, by simpa using k2, ?_, ?_,
              nodup k2 (fun z hz => k4 z (by simp [hz])) k5, hny⟩
            · intro z hz
              rcases List.mem_cons.1 hz with rfl | hz
              · simp
              · have := k3 z hz
                simp only [List.mem_cons]
                tauto
            · intro z hz
              simp only [List.mem_append, List.mem_cons] at hz
              rcases hz with (rfl | hz) | rfl | hz
              · exact ⟨z, by simp, rfl⟩
              · obtain ⟨u, hu, he⟩ := k4 z (by simp only [List.mem_append]; tauto)
                exact ⟨u, by simp [hu], he⟩
              · exact ⟨x, by simp, hxy⟩
              · obtain ⟨u, hu, he⟩ := k4 z (by simp only [List.mem_append]; tauto)
                exact ⟨u, by simp [hu], he⟩

end Laik
