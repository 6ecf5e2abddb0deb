import Verif.Model.Layout
/-!
# Lemmas about the model of layouts
-/

namespace Laik.Lay

/-! ### Entries of a lexicographic layout -/

/-- The entry describes its own range completely. -/
def Good (d : Dims) (e : LexEntry) : Prop := newLexEntry d e.box = some e

instance (d : Dims) (e : LexEntry) : Decidable (Good d e) := by unfold Good; infer_instance

theorem newLexEntry_box {d : Dims} {b : Box} {e : LexEntry} (h : newLexEntry d b = some e) :
    e.box = b := by
  unfold newLexEntry at h
  cases hs : b.size d with
  | none => rw [hs] at h; simp at h
  | some c =>
    rw [hs] at h
    simp only at h
    split at h; · simp at h
    split at h; · simp at h
    split at h; · simp at h
    simp only [Option.some.injEq] at h
    rw [← h]

theorem newLexEntry_good {d : Dims} {b : Box} {e : LexEntry} (h : newLexEntry d b = some e) :
    Good d e := by
  unfold Good; rw [newLexEntry_box h]; exact h

/-- What `Good` says, in the form with ranges of all three coordinates. -/
theorem good_spec {d : Dims} {e : LexEntry} (h : Good d e) :
    e.box.lo.x < e.box.hi.x ∧ ylo d e.box < yhi d e.box ∧ zlo d e.box < zhi d e.box ∧
    e.s0 = 1 ∧
    (d.toNat > 1 → e.s1 = e.box.hi.x - e.box.lo.x) ∧ (d.toNat ≤ 1 → e.s1 = 0) ∧
    (d.toNat > 2 → e.s2 = (e.box.hi.x - e.box.lo.x) * (e.box.hi.y - e.box.lo.y)) ∧
    (d.toNat ≤ 2 → e.s2 = 0) ∧
    e.count = (e.box.hi.x - e.box.lo.x).toNat * (yhi d e.box - ylo d e.box).toNat *
      (zhi d e.box - zlo d e.box).toNat := by
  unfold Good newLexEntry at h
  cases hs : e.box.size d with
  | none => rw [hs] at h; simp at h
  | some c =>
    rw [hs] at h
    simp only at h
    split at h; · simp at h
    rename_i h1
    split at h; · simp at h
    rename_i h2
    split at h; · simp at h
    rename_i h3
    simp only [Option.some.injEq] at h
    have e0 : e.s0 = 1 := by rw [← h]
    have e1 : e.s1 = if d.toNat > 1 then e.box.hi.x - e.box.lo.x else 0 := by
      conv => lhs; rw [← h]
    have e2 : e.s2 = if d.toNat > 2 then
        (if d.toNat > 1 then e.box.hi.x - e.box.lo.x else 0) * (e.box.hi.y - e.box.lo.y) else 0 := by
      conv => lhs; rw [← h]
    have e3 : e.count = c := by rw [← h]
    unfold Box.size at hs
    cases d
    · simp [ylo, yhi, zlo, zhi] at *
      exact ⟨h1, e0, e1, e2, by rw [e3, hs.2]⟩
    · simp [ylo, yhi, zlo, zhi] at *
      exact ⟨h1, h2, e0, e1, e2, by rw [e3, ← hs.2.2]⟩
    · simp [ylo, yhi, zlo, zhi] at *
      exact ⟨h1, h2, h3, e0, e1, e2, by rw [e3, ← hs.2.2.2]⟩

theorem newLexEntries_get {d : Dims} {bs : List Box} {es : List LexEntry}
    (h : newLexEntries d bs = some es) :
    es.length = bs.length ∧ ∀ (n : Nat) (b : Box), bs[n]? = some b →
      ∃ e, es[n]? = some e ∧ newLexEntry d b = some e := by
  induction bs generalizing es with
  | nil => simp [newLexEntries] at h; subst h; simp
  | cons b bs ih =>
    unfold newLexEntries at h
    cases h1 : newLexEntry d b with
    | none => rw [h1] at h; simp at h
    | some e =>
      cases h2 : newLexEntries d bs with
      | none => rw [h1, h2] at h; simp at h
      | some es' =>
        rw [h1, h2] at h
        simp only [Option.some.injEq] at h
        subst h
        obtain ⟨hl, hg⟩ := ih h2
        refine ⟨by simp [hl], ?_⟩
        intro n b' hn
        cases n with
        | zero => simp at hn; subst hn; exact ⟨e, by simp, h1⟩
        | succ n => simp at hn; simpa using hg n b' hn

/-! ### Offsets -/

/-- Offset in the form with three coordinates. -/
def LexEntry.off3 (d : Dims) (e : LexEntry) (x y z : Int) : Int :=
  (x - e.box.lo.x) + (y - ylo d e.box) * e.s1 + (z - zlo d e.box) * e.s2

theorem off_canon (d : Dims) (e : LexEntry) (p : Idx) : e.off d (canon d p) = e.off d p := by
  cases d <;> simp [LexEntry.off, canon]

theorem off_eq_off3 {d : Dims} {e : LexEntry} (h : Good d e) (p : Idx) :
    e.off d p = e.off3 d (canon d p).x (canon d p).y (canon d p).z := by
  obtain ⟨_, _, _, _, _, h1, _, h2, _⟩ := good_spec h
  cases d
  · simp [LexEntry.off, LexEntry.off3, canon, h1 (by decide), h2 (by decide)]
  · simp [LexEntry.off, LexEntry.off3, canon, h2 (by decide), ylo]
  · simp [LexEntry.off, LexEntry.off3, canon, ylo, zlo]; omega

theorem spanN_append (m n : Nat) : ∀ lo, spanN (m + n) lo = spanN m lo ++ spanN n (lo + m) := by
  induction m with
  | zero => intro lo; simp [spanN]
  | succ m ih =>
    intro lo
    rw [Nat.succ_add]
    simp only [spanN, List.cons_append]
    rw [ih]
    congr 2
    · push_cast; congr 1; omega

theorem spanN_map_add (n : Nat) (c : Int) : ∀ lo, (spanN n lo).map (fun x => x + c) = spanN n (lo + c) := by
  induction n with
  | zero => intro lo; rfl
  | succ n ih => intro lo; simp only [spanN, List.map_cons, ih]; congr 2; omega

/-- Consecutive runs of length `W` form one run. -/
theorem spanN_flatMap (W : Nat) (g : Int → List Int) (m : Nat) : ∀ (y c : Int),
    (∀ k : Nat, k < m → g (y + k) = spanN W (c + k * W)) →
    (spanN m y).flatMap g = spanN (m * W) c := by
  induction m with
  | zero => intro y c _; simp [spanN]
  | succ m ih =>
    intro y c h
    simp only [spanN, List.flatMap_cons]
    have h0 := h 0 (by omega)
    simp at h0
    rw [h0, ih (y + 1) (c + W) (by
      intro k hk
      have := h (k + 1) (by omega)
      rw [show y + 1 + (k : Int) = y + ((k + 1 : Nat) : Int) by omega, this]
      congr 1
      push_cast
      rw [Int.add_mul]; omega)]
    rw [show (m + 1) * W = W + m * W by rw [Nat.succ_mul]; omega, spanN_append]

/-- The offsets of the indexes in lexicographic order are 0, 1, 2, … -/
theorem offsets_dense {d : Dims} {e : LexEntry} (h : Good d e) :
    (boxPts d e.box).map (e.off d) = spanN e.count 0 := by
  obtain ⟨hx, hy, hz, h0, h1, h1', h2, h2', hc⟩ := good_spec h
  have hf : (boxPts d e.box).map (e.off d) =
      (boxPts d e.box).map (fun p => e.off3 d p.x p.y p.z) := by
    apply List.map_congr_left
    intro p hp
    rw [off_eq_off3 h, ((mem_boxPts d e.box p).1 hp).2]
  rw [hf]
  unfold boxPts
  simp only [List.map_flatMap, List.map_map, Function.comp_def]
  generalize hW : (e.box.hi.x - e.box.lo.x).toNat = W at hc
  generalize hH : (yhi d e.box - ylo d e.box).toNat = H at hc
  generalize hD : (zhi d e.box - zlo d e.box).toNat = D at hc
  -- one row
  have hrow : ∀ y z, (span e.box.lo.x e.box.hi.x).map (fun x => e.off3 d x y z) =
      spanN W (e.off3 d e.box.lo.x y z) := by
    intro y z
    unfold span
    rw [hW]
    have : (fun x => e.off3 d x y z) =
        fun x => x + (e.off3 d e.box.lo.x y z - e.box.lo.x) := by
      funext x; simp only [LexEntry.off3]; omega
    rw [this, spanN_map_add]; congr 1; omega
  have hW1 : d.toNat > 1 → e.s1 = W := by intro hd; rw [h1 hd]; omega
  -- one plane
  have hplane : ∀ z, (span (ylo d e.box) (yhi d e.box)).flatMap
      (fun y => (span e.box.lo.x e.box.hi.x).map (fun x => e.off3 d x y z)) =
      spanN (H * W) (e.off3 d e.box.lo.x (ylo d e.box) z) := by
    intro z
    unfold span at hrow ⊢
    rw [hH]
    apply spanN_flatMap
    intro k hk
    rw [hrow]
    congr 1
    by_cases hd : d.toNat > 1
    · simp only [LexEntry.off3, hW1 hd]
      rw [show ylo d e.box + (k : Int) - ylo d e.box = k by omega]; simp; omega
    · have hk0 : k = 0 := by
        have : ylo d e.box = 0 := by simp [ylo, hd]
        have : yhi d e.box = 1 := by simp [yhi, hd]
        omega
      subst hk0; simp
  have hsp : span (zlo d e.box) (zhi d e.box) = spanN D (zlo d e.box) := by unfold span; rw [hD]
  rw [hsp]
  have := spanN_flatMap (H * W) (fun z => (span (ylo d e.box) (yhi d e.box)).flatMap
      (fun y => (span e.box.lo.x e.box.hi.x).map (fun x => e.off3 d x y z))) D
      (zlo d e.box) 0 (by
    intro k hk
    rw [hplane]
    congr 1
    by_cases hd : d.toNat > 2
    · have : e.s2 = (W * H : Nat) := by
        rw [h2 hd]; push_cast
        have : e.box.hi.y - e.box.lo.y = H := by
          rw [← hH]; simp only [ylo, yhi, show d.toNat > 1 by omega, if_true] at hy ⊢; omega
        rw [this]; congr 1; omega
      simp only [LexEntry.off3, this]
      rw [show zlo d e.box + (k : Int) - zlo d e.box = k by omega]; simp
      rw [Int.mul_comm (H : Int)]
    · have hk0 : k = 0 := by
        have : zlo d e.box = 0 := by simp [zlo, hd]
        have : zhi d e.box = 1 := by simp [zhi, hd]
        omega
      subst hk0; simp [LexEntry.off3])
  rw [this, hc]
  congr 1
  rw [Nat.mul_comm D, Nat.mul_comm H]

/-- Offsets of indexes of the range lie within the allocation. -/
theorem off_bounds {d : Dims} {e : LexEntry} (h : Good d e) {p : Idx} (hp : Mem d e.box p) :
    0 ≤ e.off d p ∧ e.off d p < e.count := by
  have : e.off d (canon d p) ∈ (boxPts d e.box).map (e.off d) :=
    List.mem_map_of_mem ((mem_boxPts _ _ _).2 ⟨(mem_canon _ _ _).2 hp, canon_canon _ _⟩)
  rw [offsets_dense h, mem_spanN, off_canon] at this
  omega

theorem off_lt_of_lexLt {d : Dims} {e : LexEntry} (h : Good d e) {p q : Idx}
    (hp : Mem d e.box p) (hq : Mem d e.box q) (hlt : LexLt d p q) : e.off d p < e.off d q := by
  obtain ⟨hx, hy, hz, h0, h1, h1', h2, h2', hc⟩ := good_spec h
  cases d
  · simp [LexLt] at hlt; simp [LexEntry.off]; omega
  · rw [mem_d2] at hp hq
    simp [LexLt] at hlt; simp [LexEntry.off]
    simp at h1
    rw [h1]
    rcases hlt with hlt | ⟨he, hlt⟩
    · have := Int.mul_le_mul_of_nonneg_right
        (show p.y - e.box.lo.y + 1 ≤ q.y - e.box.lo.y by omega)
        (show 0 ≤ e.box.hi.x - e.box.lo.x by omega)
      rw [Int.add_mul] at this
      omega
    · rw [he]; omega
  · rw [mem_d3] at hp hq
    simp [LexLt] at hlt; simp [LexEntry.off]
    simp at h1 h2
    rw [h1, h2]
    generalize hW : e.box.hi.x - e.box.lo.x = W
    generalize hH : e.box.hi.y - e.box.lo.y = H
    have hWH : 0 ≤ W * H := Int.mul_nonneg (by omega) (by omega)
    rcases hlt with hlt | ⟨he, hlt | ⟨hey, hlt⟩⟩
    · have a1 := Int.mul_le_mul_of_nonneg_right
        (show p.z - e.box.lo.z + 1 ≤ q.z - e.box.lo.z by omega) hWH
      have a2 := Int.mul_le_mul_of_nonneg_right
        (show p.y - e.box.lo.y + 1 ≤ H by omega) (show 0 ≤ W by omega)
      have a3 := Int.mul_nonneg (show 0 ≤ q.y - e.box.lo.y by omega) (show 0 ≤ W by omega)
      rw [Int.add_mul] at a1 a2
      rw [Int.mul_comm H W] at a2
      omega
    · have a2 := Int.mul_le_mul_of_nonneg_right
        (show p.y - e.box.lo.y + 1 ≤ q.y - e.box.lo.y by omega) (show 0 ≤ W by omega)
      rw [Int.add_mul] at a2
      rw [he]
      omega
    · rw [he, hey]; omega

theorem lexLt_trichotomy (d : Dims) (p q : Idx) :
    LexLt d p q ∨ canon d p = canon d q ∨ LexLt d q p := by
  cases d <;> simp [LexLt, canon] <;> omega

theorem off_lt_iff {d : Dims} {e : LexEntry} (h : Good d e) {p q : Idx}
    (hp : Mem d e.box p) (hq : Mem d e.box q) : e.off d p < e.off d q ↔ LexLt d p q := by
  constructor
  · intro hlt
    rcases lexLt_trichotomy d p q with g | g | g
    · exact g
    · have : e.off d p = e.off d q := by rw [← off_canon, g, off_canon]
      omega
    · have := off_lt_of_lexLt h hq hp g; omega
  · exact off_lt_of_lexLt h hp hq

theorem off_inj {d : Dims} {e : LexEntry} (h : Good d e) {p q : Idx}
    (hp : Mem d e.box p) (hq : Mem d e.box q) (heq : e.off d p = e.off d q) :
    canon d p = canon d q := by
  rcases lexLt_trichotomy d p q with g | g | g
  · have := off_lt_of_lexLt h hp hq g; omega
  · exact g
  · have := off_lt_of_lexLt h hq hp g; omega

theorem contains_iff (d : Dims) (e : LexEntry) (p : Idx) : e.contains d p = true ↔ Mem d e.box p := by
  cases d
  · rw [mem_d1]; simp [LexEntry.contains]
  · rw [mem_d2]; simp [LexEntry.contains]
  · rw [mem_d3]; simp [LexEntry.contains]

end Laik.Lay
