import Verif.Model.KvsLemmas
/-!
# Lemmas for change journals
-/

namespace Laik

/-- Offsets after `b` for the remaining changes. -/
def jOffs : Nat → List (Bytes × Bytes) → List Nat
  | _, [] => []
  | b, (k, v) :: l => (b + (k.length + 1)) :: (b + (k.length + 1) + v.length) :: jOffs (b + (k.length + 1) + v.length) l

/-- Data of changes. -/
def jData (l : List (Bytes × Bytes)) : Bytes := l.flatMap (fun x => x.1 ++ [0] ++ x.2)

/-- Offset array for changes. -/
def jOff (l : List (Bytes × Bytes)) : List Nat := if l = [] then [] else 0 :: jOffs 0 l

theorem jData_cons (k v : Bytes) (l) : jData ((k, v) :: l) = k ++ [0] ++ v ++ jData l := by
  simp [jData]

theorem jData_append (l l') : jData (l ++ l') = jData l ++ jData l' := by simp [jData]

theorem jOffs_append (l l') (b : Nat) : jOffs b (l ++ l') = jOffs b l ++ jOffs (b + (jData l).length) l' := by
  induction l generalizing b with
  | nil => simp [jOffs, jData]
  | cons x l ih =>
    obtain ⟨k, v⟩ := x
    simp only [List.cons_append, jOffs, ih, jData_cons, List.length_append, List.length_singleton]
    rw [show b + (k.length + 1) + v.length + (jData l).length = b + (k.length + 1 + v.length + (jData l).length) from by
      omega]

theorem jOffs_length (l) (b : Nat) : (jOffs b l).length = 2 * l.length := by
  induction l generalizing b with
  | nil => rfl
  | cons x l ih =>
    obtain ⟨k, v⟩ := x
    simp only [jOffs, List.length_cons, ih]
    omega

theorem jOff_length (l) : (jOff l).length = if l = [] then 0 else 2 * l.length + 1 := by
  unfold jOff
  split
  · rfl
  · rw [List.length_cons, jOffs_length]

theorem jOffs_last (l) (b : Nat) : (b :: jOffs b l).getLast? = some (b + (jData l).length) := by
  induction l generalizing b with
  | nil => simp [jOffs, jData]
  | cons x l ih =>
    obtain ⟨k, v⟩ := x
    have := ih (b + (k.length + 1) + v.length)
    simp only [jOffs, jData_cons, List.length_append, List.length_singleton]
    rw [List.getLast?_cons_cons, List.getLast?_cons_cons, this]
    congr 1
    omega

theorem jOff_append (l) (k v : Bytes) :
    jOff (l ++ [(k, v)]) = (if (jOff l).length = 0 then [0] else jOff l) ++
      [(jData l).length + (k.length + 1), (jData l).length + (k.length + 1) + v.length] := by
  have : (if (jOff l).length = 0 then [0] else jOff l) = 0 :: jOffs 0 l := by
    cases l with
    | nil => simp [jOff, jOffs]
    | cons a l => simp [jOff]
  rw [this]
  unfold jOff
  rw [if_neg (by simp), jOffs_append]
  simp [jOffs]

/-- An unsorted journal holds the changes `l`. -/
structure JInv (c : Changes) (l : List (Bytes × Bytes)) : Prop where
  off : c.off = jOff l
  data : c.data = jData l
  ent : c.ent = []
  offLe : c.off.length ≤ c.offSize
  dataLe : c.data.length ≤ c.dataSize
  entLe : c.offSize / 2 ≤ c.entSize

theorem ensureSize_caps {c c' : Changes} {n d : Nat} (h : chEnsureSize c n d = some c') :
    c'.off = c.off ∧ c'.data = c.data ∧ c'.ent = c.ent ∧ n ≤ c'.offSize ∧ d ≤ c'.dataSize ∧ c.offSize ≤ c'.offSize ∧
      c.dataSize ≤ c'.dataSize ∧ n / 2 ≤ c'.entSize ∧ (c.offSize / 2 ≤ c.entSize → c'.offSize / 2 ≤ c'.entSize) := by
  unfold chEnsureSize at h
  split at h
  · cases h
    simp only [true_and]
    refine ⟨?_, ?_, ?_, ?_, ?_, ?_⟩
    all_goals (repeat' split)
    all_goals omega
  · cases h

theorem ensureSize_some {c : Changes} (h : c.ent = []) (n d : Nat) : ∃ c', chEnsureSize c n d = some c' := by
  unfold chEnsureSize
  rw [h]
  exact ⟨_, rfl⟩

theorem chReserve_spec {c : Changes} {l} (h : JInv c l) (k v : Bytes) :
    ∃ c1, chReserve c k v = some c1 ∧ JInv c1 l ∧
      (if c.off.length = 0 then 3 else c.off.length + 2) ≤ c1.offSize ∧
      c.data.length + (k.length + 1) + v.length ≤ c1.dataSize := by
  unfold chReserve
  simp only
  generalize (if c.off.length = 0 then 3 else c.off.length + 2) = n
  split
  · obtain ⟨c1, h1⟩ := ensureSize_some h.ent (2 * n) (2 * (c.data.length + (k.length + 1) + v.length))
    refine ⟨c1, h1, ?_⟩
    obtain ⟨e1, e2, e3, e4, e5, e6, e7, e8, e9⟩ := ensureSize_caps h1
    refine ⟨⟨e1.trans h.off, e2.trans h.data, e3.trans h.ent, ?_, ?_, e9 h.entLe⟩, by omega, by omega⟩
    · rw [e1]; exact Nat.le_trans h.offLe e6
    · rw [e2]; exact Nat.le_trans h.dataLe e7
  · rename_i hn
    exact ⟨c, rfl, h, by omega, by omega⟩

theorem jOff_start_last (l) : (if (jOff l).length = 0 then [0] else jOff l).getLast? = some (jData l).length := by
  have := jOffs_last l 0
  rw [Nat.zero_add] at this
  rw [← this]
  congr 1
  cases l with
  | nil => simp [jOff, jOffs]
  | cons a l => simp [jOff]

theorem jOff_start_length (l) : (if (jOff l).length = 0 then [0] else jOff l).length = 2 * l.length + 1 := by
  rw [jOff_length]
  cases l with
  | nil => simp
  | cons a l => simp [jOff, jOffs_length]

theorem jData_snoc (l) (k v : Bytes) : jData (l ++ [(k, v)]) = jData l ++ k ++ [0] ++ v := by
  rw [jData_append, jData_cons]
  simp [jData]

theorem chAdd_journal {c : Changes} {l} (h : JInv c l) (k v : Bytes) :
    ∃ c', chAdd c k v true false = some c' ∧ JInv c' (l ++ [(k, v)]) := by
  unfold chAdd
  obtain ⟨c1, h1, hj, hc1, hc2⟩ := chReserve_spec h k v
  rw [if_pos rfl, h1, Option.bind_some]
  unfold chAppend
  simp only [Bool.false_eq_true, if_false]
  rw [hj.off, hj.data]
  rw [h.off] at hc1
  rw [h.data] at hc2
  have hlen : (if (jOff l).length = 0 then [0] else jOff l).length + 2 ≤ c1.offSize := by
    split
    · rename_i h0; rw [if_pos h0] at hc1; simpa using hc1
    · rename_i h0; rw [if_neg h0] at hc1; exact hc1
  rw [if_pos ⟨hlen, hc2, jOff_start_last l⟩]
  refine ⟨_, rfl, ?_⟩
  refine ⟨(jOff_append l k v).symm, (jData_snoc l k v).symm, hj.ent, ?_, ?_, hj.entLe⟩
  · simpa using hlen
  · simp only [List.length_append, List.length_singleton]
    omega

/-! ## Decoding -/

theorem cstrAt_append (p k r : Bytes) (hk : 0 ∉ k) : cstrAt (p ++ (k ++ 0 :: r)) p.length = k := by
  unfold cstrAt
  rw [List.drop_left]
  induction k with
  | nil => simp
  | cons a k ih =>
    rw [List.mem_cons, not_or] at hk
    rw [List.cons_append, List.takeWhile_cons, if_pos (by simpa using fun h => hk.1 h.symm), ih hk.2]

def toEnt (x : Bytes × Bytes) : KEnt := ⟨x.1, some x.2, false⟩

/-- The parts of one change in the data. -/
theorem jData_parts (p k v r : Bytes) (hk : 0 ∉ k) :
    let data := p ++ (k ++ [0] ++ v ++ r)
    let a := p.length
    let b := a + (k.length + 1)
    let d := b + v.length
    cstrAt data a = k ∧ (data.drop b).take (d - b) = v ∧ data[b - 1]? = some 0 ∧ d ≤ data.length := by
  simp only
  refine ⟨?_, ?_, ?_, ?_⟩
  · have := cstrAt_append p k (v ++ r) hk
    simpa using this
  · have h1 : p ++ (k ++ [0] ++ v ++ r) = (p ++ (k ++ [0])) ++ (v ++ r) := by simp
    rw [h1, List.drop_left' (by simp)]
    rw [show p.length + (k.length + 1) + v.length - (p.length + (k.length + 1)) = v.length from by omega]
    rw [List.take_left]
  · have h1 : p ++ (k ++ [0] ++ v ++ r) = (p ++ k) ++ (0 :: (v ++ r)) := by simp
    rw [h1, List.getElem?_append_right (by rw [List.length_append]; omega)]
    rw [show p.length + (k.length + 1) - 1 - (p ++ k).length = 0 from by rw [List.length_append]; omega]
    rfl
  · simp only [List.length_append, List.length_singleton]
    omega

theorem chFill_spec {data : Bytes} {es : Nat} : ∀ {l pre : List (Bytes × Bytes)} {n : Nat},
    data = jData (pre ++ l) → (∀ x ∈ l, 0 ∉ x.1 ∧ x.2 ≠ []) → n + l.length ≤ es →
    chFill data es ((jData pre).length :: jOffs (jData pre).length l) n = some (l.map toEnt)
  | [], _, _, _, _, _ => by simp [jOffs, chFill]
  | (k, v) :: l, pre, n, hd, hx, hn => by
    obtain ⟨hk, hv⟩ := hx (k, v) List.mem_cons_self
    have hd' : data = jData pre ++ (k ++ [0] ++ v ++ jData l) := by
      rw [hd, jData_append, jData_cons]
    have hp := jData_parts (jData pre) k v (jData l) hk
    simp only [← hd'] at hp
    obtain ⟨h1, h2, h3, h4⟩ := hp
    have hvl : 0 < v.length := List.length_pos_of_ne_nil hv
    rw [List.length_cons] at hn
    simp only [jOffs]
    rw [chFill, if_pos ⟨by omega, by omega, by omega, h4, h3⟩, h1, h2]
    have ih := chFill_spec (l := l) (pre := pre ++ [(k, v)]) (n := n + 1) (es := es) (data := data)
      (by rw [hd]; simp) (fun x h => hx x (List.mem_cons_of_mem _ h)) (by omega)
    have hlen : (jData (pre ++ [(k, v)])).length = (jData pre).length + (k.length + 1) + v.length := by
      rw [jData_append, jData_cons]
      simp only [List.length_append, List.length_singleton, jData, List.flatMap_nil, List.length_nil]
      omega
    rw [hlen] at ih
    rw [ih]
    rfl

theorem chFill_removed {data : Bytes} {es : Nat} : ∀ {l : List (Bytes × Bytes)} {b n : Nat},
    (∃ x ∈ l, x.2 = []) → chFill data es (b :: jOffs b l) n = none
  | [], _, _, h => by obtain ⟨x, hx, _⟩ := h; cases hx
  | (k, v) :: l, b, n, h => by
    simp only [jOffs]
    rw [chFill]
    split
    · rename_i hc
      have hv : v ≠ [] := by
        rintro rfl
        simp only [List.length_nil] at hc
        omega
      have : ∃ x ∈ l, x.2 = [] := by
        obtain ⟨x, hx, h0⟩ := h
        rcases List.mem_cons.1 hx with rfl | hx
        · exact absurd h0 hv
        · exact ⟨x, hx, h0⟩
      rw [chFill_removed this]
      rfl
    · rfl

theorem qsort_nil {q} (hq : IsQsort q) : q [] = [] := (hq.perm []).eq_nil

theorem chSort_spec {q} (hq : IsQsort q) {c : Changes} {l} (h : JInv c l) (hl : ∀ x ∈ l, 0 ∉ x.1 ∧ x.2 ≠ []) :
    chSort q c = some { c with ent := q (l.map toEnt) } := by
  unfold chSort
  by_cases h0 : l = []
  · subst h0
    have : c.off.length = 0 := by rw [h.off]; rfl
    rw [if_pos this, List.map_nil, qsort_nil hq, ← h.ent]
  · have hlen : c.off.length = 2 * l.length + 1 := by rw [h.off, jOff_length, if_neg h0]
    rw [if_neg (by omega), if_pos ⟨by omega, by rw [h.ent]; rfl⟩]
    have h1 := chFill_spec (data := c.data) (es := c.entSize) (l := l) (pre := []) (n := 0) h.data hl
      (by have := h.offLe; have := h.entLe; omega)
    have h2 : c.off = 0 :: jOffs 0 l := by rw [h.off, jOff, if_neg h0]
    rw [h2]
    have h3 : (jData ([] : List (Bytes × Bytes))).length = 0 := rfl
    rw [h3] at h1
    rw [h1, Option.bind_some, if_pos]
    rw [List.length_map, List.length_cons, jOffs_length]
    omega

theorem chSort_removed {q} {c : Changes} {l} (h : JInv c l) (hl : ∃ x ∈ l, x.2 = []) : chSort q c = none := by
  have h0 : l ≠ [] := by rintro rfl; obtain ⟨x, hx, _⟩ := hl; cases hx
  have h2 : c.off = 0 :: jOffs 0 l := by rw [h.off, jOff, if_neg h0]
  unfold chSort
  rw [if_neg (by rw [h2]; simp)]
  split
  · rw [h2, chFill_removed hl]
    rfl
  · rfl

/-- Sets one after the other. -/
def setAll : List (Bytes × Bytes) → KVS → Option KVS
  | [], s => some s
  | (k, v) :: l, s => (kvsSet s k v).bind (setAll l)

theorem chApplyGo_spec {data : Bytes} : ∀ {l pre : List (Bytes × Bytes)} {s : KVS},
    data = jData (pre ++ l) → (∀ x ∈ l, 0 ∉ x.1 ∧ x.2 ≠ []) →
    chApplyGo data ((jData pre).length :: jOffs (jData pre).length l) s = setAll l s
  | [], _, _, _, _ => by simp [jOffs, chApplyGo, setAll]
  | (k, v) :: l, pre, s, hd, hx => by
    obtain ⟨hk, hv⟩ := hx (k, v) List.mem_cons_self
    have hd' : data = jData pre ++ (k ++ [0] ++ v ++ jData l) := by
      rw [hd, jData_append, jData_cons]
    have hp := jData_parts (jData pre) k v (jData l) hk
    simp only [← hd'] at hp
    obtain ⟨h1, h2, h3, h4⟩ := hp
    have hvl : 0 < v.length := List.length_pos_of_ne_nil hv
    simp only [jOffs]
    rw [chApplyGo, if_pos ⟨by omega, by omega⟩, h1, h2, setAll]
    have hlen : (jData (pre ++ [(k, v)])).length = (jData pre).length + (k.length + 1) + v.length := by
      rw [jData_append, jData_cons]
      simp only [List.length_append, List.length_singleton, jData, List.flatMap_nil, List.length_nil]
      omega
    congr 1
    funext s'
    have ih := chApplyGo_spec (l := l) (pre := pre ++ [(k, v)]) (data := data) (s := s')
      (by rw [hd]; simp) (fun x h => hx x (List.mem_cons_of_mem _ h))
    rw [hlen] at ih
    exact ih

theorem jData_pos {l} (h : l ≠ []) : 0 < (jData l).length := by
  cases l with
  | nil => exact absurd rfl h
  | cons x l =>
    obtain ⟨k, v⟩ := x
    rw [jData_cons]
    simp only [List.length_append, List.length_singleton]
    omega

theorem chApply_spec {c : Changes} {l} (ho : c.off = jOff l) (hd : c.data = jData l) (hl : ∀ x ∈ l, 0 ∉ x.1 ∧ x.2 ≠ [])
    (s : KVS) : chApply c s = setAll l s := by
  unfold chApply
  by_cases h0 : l = []
  · subst h0
    rw [if_pos (by rw [ho]; rfl)]
    rfl
  · have hlen : c.off.length = 2 * l.length + 1 := by rw [ho, jOff_length, if_neg h0]
    rw [if_neg (by omega), if_pos ⟨by omega, by rw [hd]; exact jData_pos h0⟩, ho, jOff, if_neg h0]
    exact chApplyGo_spec (l := l) (pre := []) hd hl

end Laik
