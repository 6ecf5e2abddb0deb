import Verif.Model.DataExecLemmas
import Mathlib.Data.List.Nodup
/-!
# Actions on ranges seen at one index

If memory cells of different indices are different, the effect of a list of
actions on the cells of one index is that of the actions whose range includes
the index.
-/

namespace Laik.DE

variable {A V : Type} [DecidableEq A]

theorem mem_idxs (x y i : Int) : i ∈ idxs x y ↔ x ≤ i ∧ i < y := by
  unfold idxs
  simp only [List.mem_map, List.mem_range]
  constructor
  · rintro ⟨k, hk, rfl⟩; omega
  · rintro ⟨h1, h2⟩
    exact ⟨(i - x).toNat, by omega, by omega⟩

theorem idxs_nodup (x y : Int) : (idxs x y).Nodup := by
  unfold idxs
  apply List.Nodup.map _ List.nodup_range
  intro a b h
  simp only at h
  omega

omit [DecidableEq A] in
/-- The range of the action includes the index. -/
def GA.has (g : GA A V) (i : Int) : Bool := decide (g.1.lo ≤ i ∧ i < g.1.hi)

omit [DecidableEq A] in
/-- The action only uses cells of the index handled; `C i a`: `a` is a cell of `i`. -/
def GA.cells (C : Int → A → Prop) (g : GA A V) : Prop :=
  ∀ i, g.1.lo ≤ i → i < g.1.hi → match g.1 with
    | .copy _ _ s d => C i (s i) ∧ C i (d i)
    | .send _ _ _ s => C i (s i)
    | .recv _ _ _ d _ => C i (d i)

/-- Effect of an action at one index. -/
def stepAt (op : V → V → V) (i : Int) (m : A → V) (g : GA A V) : A → V :=
  match g.1 with
  | .copy _ _ s d => put m (d i) (m (s i))
  | .send _ _ _ _ => m
  | .recv _ _ _ d red => put m (d i) (if red then op (m (d i)) (g.2.1 i) else g.2.1 i)

/-- Expected contents at one index. -/
def WalkAt (op : V → V → V) (i : Int) : (A → V) → List (GA A V) → Prop
  | _, [] => True
  | m, g :: t => (match g.1 with
      | .send _ _ _ s => m (s i) = g.2.1 i
      | _ => True) ∧ WalkAt op i (stepAt op i m g) t

theorem put_same (m : A → V) (a : A) (v : V) : put m a v a = v := by simp [put]

theorem put_ne (m : A → V) {a b : A} (v : V) (h : b ≠ a) : put m a v b = m b := by simp [put, h]

theorem foldl_point {C : Int → A → Prop} (hC : ∀ i j a, C i a → C j a → i = j) (l : List Int) (hl : l.Nodup) (d : Int → A)
    (h : Int → (A → V) → V) (hd : ∀ j ∈ l, C j (d j))
    (hh : ∀ j ∈ l, ∀ m m' : A → V, (∀ a, C j a → m a = m' a) → h j m = h j m') (i : Int) (a : A) (ha : C i a) (m : A → V) :
    l.foldl (fun m j => put m (d j) (h j m)) m a = if i ∈ l then put m (d i) (h i m) a else m a := by
  induction l generalizing m with
  | nil => rfl
  | cons j l ih =>
    rw [List.nodup_cons] at hl
    rw [List.foldl_cons, ih hl.2 (fun k hk => hd k (List.mem_cons_of_mem _ hk)) (fun k hk => hh k (List.mem_cons_of_mem _ hk))]
    have hdj := hd j List.mem_cons_self
    by_cases e : i = j
    · subst e
      rw [if_neg hl.1, if_pos List.mem_cons_self]
    · have hne : a ≠ d j := by
        intro h; rw [h] at ha; exact e (hC _ _ _ ha hdj)
      by_cases hm : i ∈ l
      · rw [if_pos hm, if_pos (List.mem_cons_of_mem _ hm)]
        have : h i (put m (d j) (h j m)) = h i m := by
          apply hh i (List.mem_cons_of_mem _ hm)
          intro b hb
          apply put_ne
          intro h; rw [h] at hb; exact e (hC _ _ _ hb hdj)
        rw [this]
        unfold put
        by_cases ea : a = d i
        · rw [if_pos ea, if_pos ea]
        · rw [if_neg ea, if_neg ea, if_neg hne]
      · rw [if_neg hm, if_neg (by simp [e, hm]), put_ne _ _ hne]

theorem stored_eq (op : V → V → V) (red : Bool) (d : Int → A) (m : A → V) (x y : Int) (c : Int → V) :
    stored op red d m x y ((idxs x y).map c) =
      (idxs x y).foldl (fun m i => put m (d i) (if red then op (m (d i)) (c i) else c i)) m := by
  unfold stored
  have : ∀ l : List Int, l.zip (l.map c) = l.map (fun i => (i, c i)) := by
    intro l
    induction l with
    | nil => rfl
    | cons a l ih => simp [ih]
  rw [this, List.foldl_map]

variable {op : V → V → V} {C : Int → A → Prop}

/-- Effect of an action on the cells of an index. -/
theorem gstep_at (hC : ∀ i j a, C i a → C j a → i = j) {g : GA A V} (hg : g.cells C) {i : Int} {a : A} (ha : C i a)
    (m : A → V) : gstep op m g a = if g.has i then stepAt op i m g a else m a := by
  have hmem : ∀ x y : Int, i ∈ idxs x y ↔ decide (x ≤ i ∧ i < y) = true := by
    intro x y
    rw [mem_idxs]
    simp
  unfold gstep stepAt GA.has
  unfold GA.cells at hg
  cases e : g.1 with
  | copy x y s d =>
    rw [e] at hg
    simp only [DAct.lo, DAct.hi] at hg ⊢
    unfold doCopy
    rw [foldl_point hC (idxs x y) (idxs_nodup x y) d (fun j m => m (s j))
      (fun j hj => (hg j ((mem_idxs _ _ _).1 hj).1 ((mem_idxs _ _ _).1 hj).2).2)
      (fun j hj m m' h => h _ (hg j ((mem_idxs _ _ _).1 hj).1 ((mem_idxs _ _ _).1 hj).2).1) i a ha m]
    exact if_congr (hmem x y) rfl rfl
  | send q x y s => simp
  | recv q x y d red =>
    rw [e] at hg
    simp only [DAct.lo, DAct.hi] at hg ⊢
    rw [msg_recv e, stored_eq]
    rw [foldl_point hC (idxs x y) (idxs_nodup x y) d (fun j m => if red then op (m (d j)) (g.2.1 j) else g.2.1 j)
      (fun j hj => hg j ((mem_idxs _ _ _).1 hj).1 ((mem_idxs _ _ _).1 hj).2)
      (fun j hj m m' h => by
        rw [h _ (hg j ((mem_idxs _ _ _).1 hj).1 ((mem_idxs _ _ _).1 hj).2)]) i a ha m]
    exact if_congr (hmem x y) rfl rfl

/-- The effect at an index depends on the cells of the index. -/
theorem stepAt_congr {g : GA A V} (hg : g.cells C) {i : Int} (hi : g.has i = true) {m m' : A → V}
    (h : ∀ a, C i a → m a = m' a) : ∀ a, C i a → stepAt op i m g a = stepAt op i m' g a := by
  intro a ha
  unfold GA.has at hi
  rw [decide_eq_true_eq] at hi
  have hg := hg i hi.1 hi.2
  unfold stepAt
  cases e : g.1 with
  | copy x y s d =>
    rw [e] at hg
    simp only [] at hg ⊢
    unfold put
    rw [h a ha, h _ hg.1]
  | send q x y s => exact h a ha
  | recv q x y d red =>
    rw [e] at hg
    simp only [] at hg ⊢
    unfold put
    rw [h a ha, h _ hg]

theorem foldAt_congr {i : Int} (l : List (GA A V)) (hl : ∀ g ∈ l, g.cells C ∧ g.has i = true) {m m' : A → V}
    (h : ∀ a, C i a → m a = m' a) : ∀ a, C i a → l.foldl (stepAt op i) m a = l.foldl (stepAt op i) m' a := by
  induction l generalizing m m' with
  | nil => exact h
  | cons g l ih =>
    exact ih (fun x hx => hl x (List.mem_cons_of_mem _ hx))
      (stepAt_congr (hl g List.mem_cons_self).1 (hl g List.mem_cons_self).2 h)

theorem walkAt_congr {i : Int} (l : List (GA A V)) (hl : ∀ g ∈ l, g.cells C ∧ g.has i = true) {m m' : A → V}
    (h : ∀ a, C i a → m a = m' a) (hw : WalkAt op i m l) : WalkAt op i m' l := by
  induction l generalizing m m' with
  | nil => trivial
  | cons g l ih =>
    refine ⟨?_, ih (fun x hx => hl x (List.mem_cons_of_mem _ hx))
      (stepAt_congr (hl g List.mem_cons_self).1 (hl g List.mem_cons_self).2 h) hw.2⟩
    have h1 := hw.1
    have hi := (hl g List.mem_cons_self).2
    unfold GA.has at hi
    rw [decide_eq_true_eq] at hi
    have hg := (hl g List.mem_cons_self).1 i hi.1 hi.2
    cases e : g.1 with
    | copy x y s d => trivial
    | send q x y s =>
      rw [e] at hg h1
      simp only [] at hg h1 ⊢
      rw [← h _ hg]
      exact h1
    | recv q x y d red => trivial

/-- Memory at the end, at the cells of an index. -/
theorem final_at (hC : ∀ i j a, C i a → C j a → i = j) (l : List (GA A V)) (hl : ∀ g ∈ l, g.cells C) {i : Int} (m : A → V) :
    ∀ a, C i a → Final op m l a = (l.filter (fun g => g.has i)).foldl (stepAt op i) m a := by
  induction l generalizing m with
  | nil => intro a _; rfl
  | cons g l ih =>
    intro a ha
    have hl' := fun x hx => hl x (List.mem_cons_of_mem g hx)
    unfold Final
    rw [List.foldl_cons]
    have := ih hl' (gstep op m g) a ha
    unfold Final at this
    rw [this]
    have hf : ∀ x ∈ l.filter (fun g => g.has i), x.cells C ∧ x.has i = true := fun x hx =>
      ⟨hl' x (List.mem_filter.1 hx).1, (List.mem_filter.1 hx).2⟩
    by_cases c : g.has i = true
    · rw [List.filter_cons_of_pos (p := fun g : GA A V => g.has i) c, List.foldl_cons]
      apply foldAt_congr _ hf _ a ha
      intro b hb
      rw [gstep_at hC (hl g List.mem_cons_self) hb, if_pos c]
    · rw [List.filter_cons_of_neg (p := fun g : GA A V => g.has i) c]
      apply foldAt_congr _ hf _ a ha
      intro b hb
      rw [gstep_at hC (hl g List.mem_cons_self) hb, if_neg c]

/-- Messages have the expected contents if they have at every index. -/
theorem walk_of_at (hC : ∀ i j a, C i a → C j a → i = j) (l : List (GA A V)) (hl : ∀ g ∈ l, g.cells C) (m : A → V)
    (hw : ∀ i, WalkAt op i m (l.filter (fun g => g.has i))) : Walk op m l := by
  induction l generalizing m with
  | nil => trivial
  | cons g l ih =>
    have hl' := fun x hx => hl x (List.mem_cons_of_mem g hx)
    refine ⟨?_, ?_⟩
    · cases e : g.1 with
      | copy x y s d => trivial
      | recv q x y d red => trivial
      | send q x y s =>
        simp only []
        unfold packed GA.msg
        rw [e]
        simp only [DAct.lo, DAct.hi]
        apply List.map_congr_left
        intro i hi
        rw [mem_idxs] at hi
        have h := hw i
        rw [List.filter_cons_of_pos (p := fun g : GA A V => g.has i) (by unfold GA.has; rw [e]; exact decide_eq_true hi)] at h
        have h1 := h.1
        rw [e] at h1
        exact h1
    · apply ih hl'
      intro i
      have h := hw i
      have hf : ∀ x ∈ l.filter (fun g => g.has i), x.cells C ∧ x.has i = true := fun x hx =>
        ⟨hl' x (List.mem_filter.1 hx).1, (List.mem_filter.1 hx).2⟩
      by_cases c : g.has i = true
      · rw [List.filter_cons_of_pos (p := fun g : GA A V => g.has i) c] at h
        refine walkAt_congr _ hf ?_ h.2
        intro b hb
        rw [gstep_at hC (hl g List.mem_cons_self) hb, if_pos c]
      · rw [List.filter_cons_of_neg (p := fun g : GA A V => g.has i) c] at h
        refine walkAt_congr _ hf ?_ h
        intro b hb
        rw [gstep_at hC (hl g List.mem_cons_self) hb, if_neg c]

end Laik.DE
