import Verif.Model.LayoutLemmas
/-!
# The traversals of pack/unpack visit the remaining indexes in order
-/

namespace Laik.Lay

/-! ### Remaining indexes -/

def rowL (x1 x y z : Int) : List Idx := (span x x1).map fun x => ⟨x, y, z⟩
def rowsL (x0 x1 y1 y z : Int) : List Idx := (span y y1).flatMap fun y => rowL x1 x0 y z
def planesL (x0 x1 y0 y1 z1 z : Int) : List Idx :=
  (span z z1).flatMap fun z => rowsL x0 x1 y1 y0 z
def remY (x0 x1 y1 x y z : Int) : List Idx := rowL x1 x y z ++ rowsL x0 x1 y1 (y + 1) z
def remZ (x0 x1 y0 y1 z1 x y z : Int) : List Idx :=
  remY x0 x1 y1 x y z ++ planesL x0 x1 y0 y1 z1 (z + 1)

/-- Indexes of box `b` from `p` on, in lexicographic order. -/
def remPts (d : Dims) (b : Box) (p : Idx) : List Idx :=
  remZ b.lo.x b.hi.x (ylo d b) (yhi d b) (zhi d b) p.x p.y p.z

theorem span_nil {a b : Int} (h : b ≤ a) : span a b = [] := by
  unfold span; rw [show (b - a).toNat = 0 by omega]; rfl

theorem span_cons {a b : Int} (h : a < b) : span a b = a :: span (a + 1) b := by
  unfold span
  rw [show (b - a).toNat = (b - (a + 1)).toNat + 1 by omega]; rfl

theorem rowL_nil {x1 x y z : Int} (h : x1 ≤ x) : rowL x1 x y z = [] := by
  simp [rowL, span_nil h]
theorem rowL_cons {x1 x y z : Int} (h : x < x1) :
    rowL x1 x y z = ⟨x, y, z⟩ :: rowL x1 (x + 1) y z := by
  simp [rowL, span_cons h]
theorem rowsL_nil {x0 x1 y1 y z : Int} (h : y1 ≤ y) : rowsL x0 x1 y1 y z = [] := by
  simp [rowsL, span_nil h]
theorem rowsL_cons {x0 x1 y1 y z : Int} (h : y < y1) :
    rowsL x0 x1 y1 y z = remY x0 x1 y1 x0 y z := by
  simp [rowsL, remY, span_cons h]
theorem planesL_nil {x0 x1 y0 y1 z1 z : Int} (h : z1 ≤ z) : planesL x0 x1 y0 y1 z1 z = [] := by
  simp [planesL, span_nil h]
theorem planesL_cons {x0 x1 y0 y1 z1 z : Int} (h : z < z1) (hy : y0 < y1) :
    planesL x0 x1 y0 y1 z1 z = remZ x0 x1 y0 y1 z1 x0 y0 z := by
  unfold planesL remZ
  rw [span_cons h, List.flatMap_cons, rowsL_cons hy]; rfl

theorem canon_mem_bounds {d : Dims} {b : Box} {i : Idx} (h : Mem d b i) :
    (b.lo.x ≤ i.x ∧ i.x < b.hi.x) ∧ (ylo d b ≤ (canon d i).y ∧ (canon d i).y < yhi d b) ∧
    (zlo d b ≤ (canon d i).z ∧ (canon d i).z < zhi d b) := by
  cases d
  · rw [mem_d1] at h; simp [canon, ylo, yhi, zlo, zhi]; omega
  · rw [mem_d2] at h; simp [canon, ylo, yhi, zlo, zhi]; omega
  · rw [mem_d3] at h; simp [canon, ylo, yhi, zlo, zhi]; omega

theorem mem_of_bounds {d : Dims} {b : Box} {i : Idx}
    (h : (b.lo.x ≤ i.x ∧ i.x < b.hi.x) ∧ (ylo d b ≤ i.y ∧ i.y < yhi d b) ∧
      (zlo d b ≤ i.z ∧ i.z < zhi d b)) : Mem d b i ∧ canon d i = i := by
  obtain ⟨ix, iy, iz⟩ := i
  cases d
  · rw [mem_d1]; simp [canon, ylo, yhi, zlo, zhi] at *; omega
  · rw [mem_d2]; simp [canon, ylo, yhi, zlo, zhi] at *; omega
  · rw [mem_d3]; simp [canon, ylo, yhi, zlo, zhi] at *; omega

/-- From the first index of a non-empty box, all indexes remain. -/
theorem remPts_lo {d : Dims} {b : Box} (h : Mem d b b.lo) :
    remPts d b (canon d b.lo) = boxPts d b := by
  have hb := canon_mem_bounds h
  have h1 : (canon d b.lo).y = ylo d b := by simp [canon, ylo]
  have h2 : (canon d b.lo).z = zlo d b := by simp [canon, zlo]
  have h3 : (canon d b.lo).x = b.lo.x := rfl
  unfold remPts
  rw [h1, h2, h3, ← planesL_cons (by omega) (by omega)]
  rfl

/-- Position `i` (a value of `*idx`) stands for the remaining indexes `S`. -/
def At (d : Dims) (b : Box) (i : Idx) (S : List Idx) : Prop :=
  (S = [] ∧ canon d i = canon d b.hi) ∨ (Mem d b i ∧ S = remPts d b (canon d i))

theorem at_lo {d : Dims} {b : Box} (h : Mem d b b.lo) : At d b b.lo (boxPts d b) :=
  .inr ⟨h, (remPts_lo h).symm⟩

theorem remPts_ne_nil {d : Dims} {b : Box} {i : Idx} (h : Mem d b i) :
    remPts d b (canon d i) ≠ [] := by
  have hb := canon_mem_bounds h
  unfold remPts remZ remY
  rw [show (canon d i).x = i.x from rfl, rowL_cons (by omega)]
  simp

theorem indexIsEqual_canon (d : Dims) (a b : Idx) :
    indexIsEqual d a b = true ↔ canon d a = canon d b := by
  cases d <;> simp [indexIsEqual, canon] <;> grind

/-- Both sides recognise the end: `*idx == to` iff nothing remains. -/
theorem at_end {d : Dims} {b : Box} {i : Idx} {S : List Idx} (h : At d b i S) :
    indexIsEqual d i b.hi = true ↔ S = [] := by
  rw [indexIsEqual_canon]
  rcases h with ⟨h1, h2⟩ | ⟨h1, h2⟩
  · simp [h1, h2]
  · have hb := canon_mem_bounds h1
    constructor
    · intro he
      have : (canon d i).x = (canon d b.hi).x := by rw [he]
      simp [canon] at this; omega
    · intro he; rw [he] at h2; exact absurd h2.symm (remPts_ne_nil h1)

theorem remPts_sub {d : Dims} {b : Box} {i : Idx} (h : Mem d b i) :
    ∀ p ∈ remPts d b (canon d i), Mem d b p ∧ canon d p = p := by
  have hb := canon_mem_bounds h
  intro p hp
  apply mem_of_bounds
  unfold remPts remZ remY planesL rowsL rowL at hp
  simp only [List.mem_append, List.mem_map, List.mem_flatMap, mem_span] at hp
  have hx : (canon d i).x = i.x := rfl
  rw [hx] at hp
  rcases hp with (⟨x, hx, rfl⟩ | ⟨y, hy, x, hx, rfl⟩) | ⟨z, hz, y, hy, x, hx, rfl⟩ <;>
    simp only <;> omega

/-! ### Running the element copies over a list of indexes -/

/-- Run `body` over a list of indexes until it refuses. -/
def runP {σ : Type} (body : σ → Option (Int → σ)) (ad : Idx → Int) : σ → List Idx → σ × List Idx
  | s, [] => (s, [])
  | s, p :: L =>
    match body s with
    | none => (s, p :: L)
    | some f => runP body ad (f (ad p)) L

theorem runP_stop {σ : Type} {body : σ → Option (Int → σ)} {ad : Idx → Int} {s : σ} (p : Idx)
    (L : List Idx) (h : body s = none) : runP body ad s (p :: L) = (s, p :: L) := by
  simp [runP, h]

theorem runP_go {σ : Type} {body : σ → Option (Int → σ)} {ad : Idx → Int} {s : σ} {f : Int → σ}
    (p : Idx) (L : List Idx) (h : body s = some f) :
    runP body ad s (p :: L) = runP body ad (f (ad p)) L := by
  simp [runP, h]

theorem runP_append {σ : Type} (body : σ → Option (Int → σ)) (ad : Idx → Int) (L M : List Idx) :
    ∀ s, runP body ad s (L ++ M) =
      if (runP body ad s L).2 = [] then runP body ad (runP body ad s L).1 M
      else ((runP body ad s L).1, (runP body ad s L).2 ++ M) := by
  induction L with
  | nil => intro s; simp [runP]
  | cons p L ih =>
    intro s
    rw [List.cons_append]
    cases h : body s with
    | none => rw [runP_stop _ _ h, runP_stop _ _ h]; simp
    | some f => rw [runP_go _ _ h, runP_go _ _ h]; exact ih _

theorem runP_congr {σ : Type} (body : σ → Option (Int → σ)) (ad ad' : Idx → Int) (L : List Idx)
    (h : ∀ p ∈ L, ad p = ad' p) : ∀ s, runP body ad s L = runP body ad' s L := by
  induction L with
  | nil => intro s; rfl
  | cons p L ih =>
    intro s
    simp only [runP]
    rw [h p (by simp)]
    cases body s with
    | none => rfl
    | some f => simp only; exact ih (fun q hq => h q (by simp [hq])) _

/-! ### Generic traversal -/

theorem nextLex_spec {d : Dims} {b : Box} {i : Idx} (h : Mem d b i) :
    ((nextLex d b i).1 = true → Mem d b (nextLex d b i).2 ∧
      remPts d b (canon d i) = canon d i :: remPts d b (canon d (nextLex d b i).2)) ∧
    ((nextLex d b i).1 = false → remPts d b (canon d i) = [canon d i]) := by
  have hb := canon_mem_bounds h
  obtain ⟨ix, iy, iz⟩ := i
  have hx : (canon d ⟨ix, iy, iz⟩ : Idx).x = ix := rfl
  simp only at hb
  have e1 : remPts d b (canon d ⟨ix, iy, iz⟩) =
      canon d ⟨ix, iy, iz⟩ :: (rowL b.hi.x (ix + 1) (canon d ⟨ix, iy, iz⟩).y (canon d ⟨ix, iy, iz⟩).z ++
        rowsL b.lo.x b.hi.x (yhi d b) ((canon d ⟨ix, iy, iz⟩).y + 1) (canon d ⟨ix, iy, iz⟩).z ++
        planesL b.lo.x b.hi.x (ylo d b) (yhi d b) (zhi d b) ((canon d ⟨ix, iy, iz⟩).z + 1)) := by
    unfold remPts remZ remY
    rw [hx, rowL_cons (by omega)]
    simp [canon]
  rw [e1]
  by_cases c1 : ix + 1 < b.hi.x
  · have en : nextLex d b ⟨ix, iy, iz⟩ = (true, ⟨ix + 1, iy, iz⟩) := by simp [nextLex, c1]
    rw [en]
    refine ⟨fun _ => ⟨?_, ?_⟩, by simp⟩
    · cases d
      · rw [mem_d1] at h ⊢; simp at *; omega
      · rw [mem_d2] at h ⊢; simp at *; omega
      · rw [mem_d3] at h ⊢; simp at *; omega
    · simp [remPts, remZ, remY, canon]
  · rw [rowL_nil (by omega)]
    cases d
    · have en : nextLex .d1 b ⟨ix, iy, iz⟩ = (false, ⟨ix + 1, iy, iz⟩) := by simp [nextLex, c1]
      rw [en]
      refine ⟨by simp, fun _ => ?_⟩
      rw [rowsL_nil (by simp [canon, yhi]), planesL_nil (by simp [canon, zhi])]; simp
    · rw [mem_d2] at h
      by_cases c2 : iy + 1 < b.hi.y
      · have en : nextLex .d2 b ⟨ix, iy, iz⟩ = (true, ⟨b.lo.x, iy + 1, iz⟩) := by
          simp [nextLex, c1, c2]
        rw [en]
        refine ⟨fun _ => ⟨?_, ?_⟩, by simp⟩
        · rw [mem_d2]; simp at *; omega
        · simp only [canon, toNat_d2]
          rw [rowsL_cons (by simp [yhi, c2])]
          simp [remPts, remZ]
      · have en : nextLex .d2 b ⟨ix, iy, iz⟩ = (false, ⟨b.lo.x, iy + 1, iz⟩) := by
          simp [nextLex, c1, c2]
        rw [en]
        refine ⟨by simp, fun _ => ?_⟩
        rw [rowsL_nil (by simp [canon, yhi]; omega), planesL_nil (by simp [canon, zhi])]; simp
    · rw [mem_d3] at h
      by_cases c2 : iy + 1 < b.hi.y
      · have en : nextLex .d3 b ⟨ix, iy, iz⟩ = (true, ⟨b.lo.x, iy + 1, iz⟩) := by
          simp [nextLex, c1, c2]
        rw [en]
        refine ⟨fun _ => ⟨?_, ?_⟩, by simp⟩
        · rw [mem_d3]; simp at *; omega
        · simp only [canon, toNat_d3]
          rw [rowsL_cons (by simp [yhi, c2])]
          simp [remPts, remZ]
      · rw [rowsL_nil (by simp [canon, yhi]; omega)]
        by_cases c3 : iz + 1 < b.hi.z
        · have en : nextLex .d3 b ⟨ix, iy, iz⟩ = (true, ⟨b.lo.x, b.lo.y, iz + 1⟩) := by
            simp [nextLex, c1, c2, c3]
          rw [en]
          refine ⟨fun _ => ⟨?_, ?_⟩, by simp⟩
          · rw [mem_d3]; simp at *; omega
          · simp only [canon, toNat_d3]
            rw [planesL_cons (by simp [zhi, c3]) (by simp [ylo, yhi]; omega)]
            simp [remPts, ylo]
        · have en : nextLex .d3 b ⟨ix, iy, iz⟩ = (false, ⟨b.lo.x, b.lo.y, iz + 1⟩) := by
            simp [nextLex, c1, c2, c3]
          rw [en]
          refine ⟨by simp, fun _ => ?_⟩
          rw [planesL_nil (by simp [canon, zhi]; omega)]; simp

theorem genLoop_spec {σ : Type} {d : Dims} {b : Box} {addr : Idx → Option Int}
    {body : σ → Option (Int → σ)} {ad : Idx → Int} (μ : σ → Nat)
    (hμ : ∀ s f a, body s = some f → μ (f a) < μ s)
    (had : ∀ p, Mem d b p → addr p = some (ad (canon d p))) :
    ∀ (fuel : Nat) (s : σ) (i : Idx), μ s < fuel → Mem d b i →
      ∃ i', genLoop d b addr body fuel s i =
          some ((runP body ad s (remPts d b (canon d i))).1, i') ∧
        At d b i' (runP body ad s (remPts d b (canon d i))).2 := by
  intro fuel
  induction fuel with
  | zero => intro s i h; omega
  | succ fuel ih =>
    intro s i hf hm
    obtain ⟨hn1, hn2⟩ := nextLex_spec hm
    have hne := remPts_ne_nil hm
    unfold genLoop
    cases hb : body s with
    | none =>
      refine ⟨i, ?_⟩
      simp only
      cases hr : remPts d b (canon d i) with
      | nil => exact absurd hr hne
      | cons p L =>
        rw [runP_stop _ _ hb]
        exact ⟨rfl, .inr ⟨hm, hr.symm⟩⟩
    | some f =>
      simp only
      rw [had i hm]
      simp only
      cases hnx : nextLex d b i with
      | mk ok i' =>
        rw [hnx] at hn1 hn2
        cases ok with
        | true =>
          simp only at hn1 ⊢
          obtain ⟨hm', hr⟩ := hn1 trivial
          have := hμ s f (ad (canon d i)) hb
          rw [hr]
          simp only [runP, hb]
          exact ih (f (ad (canon d i))) i' (by omega) hm'
        | false =>
          simp only at hn2 ⊢
          rw [hn2 trivial]
          simp only [runP, hb]
          exact ⟨b.hi, rfl, .inl ⟨rfl, rfl⟩⟩

/-! ### Loops of the lexicographic layout -/

theorem lexX_spec {σ : Type} (body : σ → Option (Int → σ)) (ad : Idx → Int) (y z x1 : Int)
    (had : ∀ x, ad ⟨x + 1, y, z⟩ = ad ⟨x, y, z⟩ + 1) :
    ∀ (n : Nat) (s : σ) (x : Int), (x1 - x).toNat = n → x ≤ x1 →
      ∃ x' ptr' stop,
        lexX body n s x (ad ⟨x, y, z⟩) = ((runP body ad s (rowL x1 x y z)).1, x', ptr', stop) ∧
        (stop = false → (runP body ad s (rowL x1 x y z)).2 = [] ∧ ptr' = ad ⟨x1, y, z⟩) ∧
        (stop = true → x ≤ x' ∧ x' < x1 ∧
          (runP body ad s (rowL x1 x y z)).2 = rowL x1 x' y z) := by
  intro n
  induction n with
  | zero =>
    intro s x hn hx
    refine ⟨x, ad ⟨x, y, z⟩, false, ?_, ?_, by simp⟩
    · rw [rowL_nil (by omega)]; rfl
    · intro _
      rw [rowL_nil (by omega), show x = x1 by omega]; exact ⟨rfl, rfl⟩
  | succ n ih =>
    intro s x hn hx
    have hlt : x < x1 := by omega
    rw [rowL_cons hlt]
    simp only [lexX]
    cases hb : body s with
    | none =>
      rw [runP_stop _ _ hb]
      refine ⟨x, _, true, rfl, by simp, fun _ => ⟨by omega, hlt, ?_⟩⟩
      rw [rowL_cons hlt]
    | some f =>
      rw [runP_go _ _ hb]
      obtain ⟨x', ptr', stop, h1, h2, h3⟩ := ih (f (ad ⟨x, y, z⟩)) (x + 1) (by omega) (by omega)
      rw [had] at h1
      exact ⟨x', ptr', stop, h1, h2, fun hs => ⟨by have := (h3 hs).1; omega, (h3 hs).2⟩⟩

theorem lexY_spec {σ : Type} (body : σ → Option (Int → σ)) (ad : Idx → Int)
    (z x0 x1 y1 skip0 : Int) (hx01 : x0 ≤ x1)
    (hadx : ∀ x y, ad ⟨x + 1, y, z⟩ = ad ⟨x, y, z⟩ + 1)
    (hady : ∀ y, y + 1 < y1 → ad ⟨x1, y, z⟩ + skip0 = ad ⟨x0, y + 1, z⟩) :
    ∀ (n : Nat) (s : σ) (x y : Int), (y1 - y).toNat = n + 1 → x0 ≤ x → x ≤ x1 →
      ∃ x' y' ptr' stop,
        lexY body x0 x1 skip0 (n + 1) s x y (ad ⟨x, y, z⟩) =
          ((runP body ad s (remY x0 x1 y1 x y z)).1, x', y', ptr', stop) ∧
        (stop = false → (runP body ad s (remY x0 x1 y1 x y z)).2 = [] ∧ x' = x0 ∧
          ptr' = ad ⟨x1, y1 - 1, z⟩ + skip0) ∧
        (stop = true → x0 ≤ x' ∧ x' < x1 ∧ y ≤ y' ∧ y' < y1 ∧
          (runP body ad s (remY x0 x1 y1 x y z)).2 = remY x0 x1 y1 x' y' z) := by
  intro n
  induction n with
  | zero =>
    intro s x y hn hx0 hx1
    obtain ⟨x', ptr', stop, h1, h2, h3⟩ := lexX_spec body ad y z x1 (fun x => hadx x y)
      (x1 - x).toNat s x rfl hx1
    unfold remY
    rw [rowsL_nil (by omega), List.append_nil]
    simp only [lexY, h1]
    cases stop with
    | true =>
      obtain ⟨g1, g2, g3⟩ := h3 rfl
      refine ⟨x', y, ptr', true, rfl, by simp, fun _ => ⟨by omega, g2, by omega, by omega, ?_⟩⟩
      rw [rowsL_nil (by omega), List.append_nil, g3]
    | false =>
      obtain ⟨g1, g2⟩ := h2 rfl
      refine ⟨x0, y + 1, ptr' + skip0, false, rfl, fun _ => ⟨g1, rfl, ?_⟩, by simp⟩
      rw [g2, show y1 - 1 = y by omega]
  | succ n ih =>
    intro s x y hn hx0 hx1
    obtain ⟨x', ptr', stop, h1, h2, h3⟩ := lexX_spec body ad y z x1 (fun x => hadx x y)
      (x1 - x).toNat s x rfl hx1
    have e : remY x0 x1 y1 x y z = rowL x1 x y z ++ rowsL x0 x1 y1 (y + 1) z := rfl
    rw [e, runP_append]
    rw [lexY, h1]
    cases stop with
    | true =>
      obtain ⟨g1, g2, g3⟩ := h3 rfl
      have hne : rowL x1 x' y z ≠ [] := by rw [rowL_cons g2]; simp
      rw [g3, if_neg hne]
      refine ⟨x', y, ptr', true, rfl, by simp, fun _ => ⟨by omega, g2, by omega, by omega, rfl⟩⟩
    | false =>
      obtain ⟨g1, g2⟩ := h2 rfl
      rw [if_pos g1, rowsL_cons (by omega)]
      obtain ⟨x'', y'', ptr'', stop, k1, k2, k3⟩ :=
        ih (runP body ad s (rowL x1 x y z)).1 x0 (y + 1) (by omega) (by omega) hx01
      rw [← hady y (by omega), ← g2] at k1
      exact ⟨x'', y'', ptr'', stop, k1, k2, fun hs => by
        obtain ⟨q1, q2, q3, q4, q5⟩ := k3 hs
        exact ⟨q1, q2, by omega, q4, q5⟩⟩

theorem lexZ_spec {σ : Type} (body : σ → Option (Int → σ)) (ad : Idx → Int)
    (x0 x1 y0 y1 z1 skip0 skip1 : Int) (hx01 : x0 ≤ x1) (hy01 : y0 < y1)
    (hadx : ∀ x y z, ad ⟨x + 1, y, z⟩ = ad ⟨x, y, z⟩ + 1)
    (hady : ∀ y z, y + 1 < y1 → ad ⟨x1, y, z⟩ + skip0 = ad ⟨x0, y + 1, z⟩)
    (hadz : ∀ z, z + 1 < z1 → ad ⟨x1, y1 - 1, z⟩ + skip0 + skip1 = ad ⟨x0, y0, z + 1⟩) :
    ∀ (n : Nat) (s : σ) (x y z : Int), (z1 - z).toNat = n + 1 → x0 ≤ x → x ≤ x1 → y0 ≤ y → y < y1 →
      ∃ x' y' z' stop,
        lexZ body x0 x1 skip0 y0 y1 skip1 (n + 1) s x y z (ad ⟨x, y, z⟩) =
          ((runP body ad s (remZ x0 x1 y0 y1 z1 x y z)).1, x', y', z', stop) ∧
        (stop = false → (runP body ad s (remZ x0 x1 y0 y1 z1 x y z)).2 = [] ∧ z' = z1) ∧
        (stop = true → x0 ≤ x' ∧ x' < x1 ∧ y0 ≤ y' ∧ y' < y1 ∧ z ≤ z' ∧ z' < z1 ∧
          (runP body ad s (remZ x0 x1 y0 y1 z1 x y z)).2 = remZ x0 x1 y0 y1 z1 x' y' z') := by
  intro n
  induction n with
  | zero =>
    intro s x y z hn hx0 hx1 hy0 hy1
    obtain ⟨x', y', ptr', stop, h1, h2, h3⟩ := lexY_spec body ad z x0 x1 y1 skip0 hx01
      (fun x y => hadx x y z) (fun y => hady y z) ((y1 - y).toNat - 1) s x y (by omega) hx0 hx1
    rw [show (y1 - y).toNat - 1 + 1 = (y1 - y).toNat by omega] at h1
    unfold remZ
    rw [planesL_nil (by omega), List.append_nil]
    simp only [lexZ, h1]
    cases stop with
    | true =>
      obtain ⟨g1, g2, g3, g4, g5⟩ := h3 rfl
      refine ⟨x', y', z, true, rfl, by simp,
        fun _ => ⟨g1, g2, by omega, g4, by omega, by omega, ?_⟩⟩
      rw [planesL_nil (by omega), List.append_nil, g5]
    | false =>
      obtain ⟨g1, g2, g3⟩ := h2 rfl
      exact ⟨x', y0, z + 1, false, rfl, fun _ => ⟨g1, by omega⟩, by simp⟩
  | succ n ih =>
    intro s x y z hn hx0 hx1 hy0 hy1
    obtain ⟨x', y', ptr', stop, h1, h2, h3⟩ := lexY_spec body ad z x0 x1 y1 skip0 hx01
      (fun x y => hadx x y z) (fun y => hady y z) ((y1 - y).toNat - 1) s x y (by omega) hx0 hx1
    rw [show (y1 - y).toNat - 1 + 1 = (y1 - y).toNat by omega] at h1
    have e : remZ x0 x1 y0 y1 z1 x y z =
      remY x0 x1 y1 x y z ++ planesL x0 x1 y0 y1 z1 (z + 1) := rfl
    rw [e, runP_append]
    rw [lexZ, h1]
    cases stop with
    | true =>
      obtain ⟨g1, g2, g3, g4, g5⟩ := h3 rfl
      have hne : remY x0 x1 y1 x' y' z ≠ [] := by unfold remY; rw [rowL_cons g2]; simp
      rw [g5, if_neg hne]
      exact ⟨x', y', z, true, rfl, by simp,
        fun _ => ⟨g1, g2, by omega, g4, by omega, by omega, rfl⟩⟩
    | false =>
      obtain ⟨g1, g2, g3⟩ := h2 rfl
      rw [if_pos g1, planesL_cons (by omega) hy01]
      obtain ⟨x'', y'', z'', stop, k1, k2, k3⟩ :=
        ih (runP body ad s (remY x0 x1 y1 x y z)).1 x0 y0 (z + 1) (by omega) (by omega) hx01
          (by omega) hy01
      rw [← hadz z (by omega), ← g3] at k1
      subst g2
      exact ⟨x'', y'', z'', stop, k1, k2, fun hs => by
        obtain ⟨q1, q2, q3, q4, q5, q6, q7⟩ := k3 hs
        exact ⟨q1, q2, q3, q4, by omega, q6, q7⟩⟩

end Laik.Lay
