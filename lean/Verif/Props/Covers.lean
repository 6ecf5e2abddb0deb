import Verif.Model.Covers
/-!
# C04, C05: the coverage test
-/

namespace Laik

/-- Specification: every index of `space` is in some range. -/
def Covered (d : Dims) (space : Box) (ranges : List Box) : Prop :=
  ∀ p, Mem d space p → ∃ r ∈ ranges, Mem d r p

/-- C04: a positive answer is right, for every range list (any overlap, any
empty or inverted range) and whatever permutation sorting produced. -/
theorem C04_covers_sound (d : Dims) (space : Box) (ranges sorted : List Box)
    (hperm : sorted.Perm ranges)
    (h : coversSpace d space sorted = some true) : Covered d space ranges := by
  intro p hp
  obtain ⟨r, hr, hm⟩ := coversLoop_sound d sorted [space] h p ⟨space, by simp, hp⟩
  exact ⟨r, hperm.mem_iff.1 hr, hm⟩

/-- C05 (partial: non-empty space and ranges, and the check did not abort): a
negative answer is right. -/
theorem C05_covers_complete_partial (d : Dims) (space : Box) (ranges sorted : List Box)
    (hperm : sorted.Perm ranges)
    (hspace : ∃ p, Mem d space p) (hne : ∀ r ∈ ranges, ∃ p, Mem d r p)
    (h : coversSpace d space sorted = some false) : ¬ Covered d space ranges := by
  intro hc
  obtain ⟨p, ⟨q, hq, hm⟩, hr⟩ := coversLoop_complete d sorted [space] h (by simp)
    (by simpa using hspace) (fun r hr => hne r (hperm.mem_iff.1 hr))
  simp at hq; subst hq
  obtain ⟨r, hr', hm'⟩ := hc p hm
  exact hr r (hperm.mem_iff.2 hr') hm'

/-- C05 (partial: 1d): for a non-empty 1d space covered by any number of
non-empty ranges the check never aborts and answers true. -/
theorem C05_covers_1d_partial (space : Box) (ranges sorted : List Box)
    (hperm : sorted.Perm ranges) (hsorted : SortedByFrom sorted)
    (hspace : ∃ p, Mem .d1 space p)
    (hc : Covered .d1 space ranges) : coversSpace .d1 space sorted = some true := by
  have key : ∀ (rs : List Box) (b : Box), b.lo.x < b.hi.x → SortedByFrom rs →
      (∀ p, Mem .d1 b p → ∃ r ∈ rs, Mem .d1 r p) → coversLoop .d1 [b] rs = some true := by
    intro rs
    induction rs with
    | nil =>
      intro b hb _ hcov
      obtain ⟨r, hr, _⟩ := hcov b.lo ((mem_d1 _ _).2 ⟨by omega, hb⟩)
      simp at hr
    | cons r rs ih =>
      intro b hb hs hcov
      have hs' := List.pairwise_cons.1 hs
      simp only [coversLoop, List.flatMap_cons, List.flatMap_nil, List.append_nil,
        List.length_cons, List.length_nil]
      -- the first uncovered index must be in some range, so `r` starts at or before it
      have hstart : r.lo.x ≤ b.lo.x := by
        obtain ⟨r', hr', hm⟩ := hcov b.lo ((mem_d1 _ _).2 ⟨by omega, hb⟩)
        rw [mem_d1] at hm
        simp only [List.mem_cons] at hr'
        rcases hr' with rfl | hr'
        · exact hm.1
        · have := hs'.1 r' hr'; omega
      have hsub : subtract .d1 r b = if r.hi.x ≤ b.lo.x then [b] else
          if b.hi.x > r.hi.x then [⟨⟨r.hi.x, b.lo.y, b.lo.z⟩, b.hi⟩] else [] := by
        unfold subtract
        by_cases h1 : r.hi.x ≤ b.lo.x
        · have : b.intersect .d1 r = none := by
            simp [Box.intersect, intersect1, h1]
          simp [this, h1]
        · have : ∃ c, b.intersect .d1 r = some c := by
            simp [Box.intersect, intersect1, h1]
            have : ¬ b.hi.x ≤ r.lo.x := by omega
            simp [this]
          obtain ⟨c, hc⟩ := this
          simp only [hc, h1, if_false]
          have h2 : ¬ b.lo.x < r.lo.x := by omega
          simp only [toNat_d1, List.range_one, List.foldl_cons, List.foldl_nil, subtractDim,
            Idx.get, h2, if_false, Idx.set]
          split <;> rfl
      rw [hsub]
      by_cases h1 : r.hi.x ≤ b.lo.x
      · simp only [h1, if_true]
        simp [coverListMax]
        apply ih b hb hs'.2
        intro p hp
        obtain ⟨r', hr', hm⟩ := hcov p hp
        simp only [List.mem_cons] at hr'
        rcases hr' with rfl | hr'
        · rw [mem_d1] at hp hm; omega
        · exact ⟨r', hr', hm⟩
      · simp only [h1, if_false]
        by_cases h2 : b.hi.x > r.hi.x
        · simp only [h2, if_true]
          simp [coverListMax]
          apply ih ⟨⟨r.hi.x, b.lo.y, b.lo.z⟩, b.hi⟩ h2 hs'.2
          intro p hp
          rw [mem_d1] at hp; simp only at hp
          obtain ⟨r', hr', hm⟩ := hcov p ((mem_d1 _ _).2 (by omega))
          simp only [List.mem_cons] at hr'
          rcases hr' with rfl | hr'
          · rw [mem_d1] at hm; omega
          · exact ⟨r', hr', hm⟩
        · simp [h2, coverListMax]
  have hb : space.lo.x < space.hi.x := by
    obtain ⟨p, hp⟩ := hspace; rw [mem_d1] at hp; omega
  refine key sorted space hb hsorted (fun p hp => ?_)
  obtain ⟨r, hr, hm⟩ := hc p hp
  exact ⟨r, hperm.mem_iff.2 hr, hm⟩

/-- Violation of C05: a range which is empty in one dimension leaves an empty
piece that is never removed, so a covered 3d space is reported as not covered. -/
theorem C05_false_negative :
    ∃ (space : Box) (ranges : List Box), (∃ p, Mem .d3 space p) ∧ SortedByFrom ranges ∧
      Covered .d3 space ranges ∧ coversSpace .d3 space ranges = some false := by
  refine ⟨⟨⟨0,0,0⟩,⟨10,10,10⟩⟩,
    [⟨⟨0,4,1⟩,⟨10,4,2⟩⟩, ⟨⟨0,0,0⟩,⟨10,4,10⟩⟩, ⟨⟨0,4,0⟩,⟨10,10,10⟩⟩],
    ⟨⟨0,0,0⟩, by decide⟩, by simp [SortedByFrom], ?_, by decide +kernel⟩
  intro p hp
  rw [mem_d3] at hp; simp only at hp
  by_cases h : p.y < 4
  · exact ⟨⟨⟨0,0,0⟩,⟨10,4,10⟩⟩, by simp, (mem_d3 _ _).2 (by simp only; omega)⟩
  · exact ⟨⟨⟨0,4,0⟩,⟨10,10,10⟩⟩, by simp, (mem_d3 _ _).2 (by simp only; omega)⟩

/-- Violation of C05: an empty space (vacuously covered) is reported as not covered. -/
theorem C05_empty_space_false :
    Covered .d1 ⟨⟨0,0,0⟩,⟨0,0,0⟩⟩ [] ∧ coversSpace .d1 ⟨⟨0,0,0⟩,⟨0,0,0⟩⟩ [] = some false := by
  refine ⟨?_, by decide⟩
  intro p hp; rw [mem_d1] at hp; simp only at hp; omega

/-- 120 rows of a 2d space, first all even then all odd rows (as one gets from
a list of two processes owning even and odd rows). -/
def evenOddRows : List Box :=
  ((List.range 60).map (fun i : Nat => (⟨⟨0, 2 * i, 0⟩, ⟨1, 2 * i + 1, 0⟩⟩ : Box))) ++
  ((List.range 60).map (fun i : Nat => (⟨⟨0, 2 * i + 1, 0⟩, ⟨1, 2 * i + 2, 0⟩⟩ : Box)))

/-- Violation of C05: the check aborts for a covered 2d space. -/
theorem C05_abort_on_covered :
    SortedByFrom evenOddRows ∧ Covered .d2 ⟨⟨0,0,0⟩,⟨1,120,0⟩⟩ evenOddRows ∧
      coversSpace .d2 ⟨⟨0,0,0⟩,⟨1,120,0⟩⟩ evenOddRows = none := by
  refine ⟨?_, ?_, by decide +kernel⟩
  · have h : ∀ r ∈ evenOddRows, r.lo.x = 0 := by
      intro r hr
      simp only [evenOddRows, List.mem_append, List.mem_map] at hr
      rcases hr with ⟨i, _, rfl⟩ | ⟨i, _, rfl⟩ <;> rfl
    exact List.Pairwise.imp_of_mem (R := fun _ _ => True)
      (fun {a b} ha hb _ => by rw [h a ha, h b hb]; omega)
      (List.pairwise_of_forall (fun _ _ => trivial))
  · intro p hp
    rw [mem_d2] at hp; simp only at hp
    by_cases he : p.y % 2 = 0
    · refine ⟨⟨⟨0, 2 * ((p.y / 2).toNat : Int), 0⟩, ⟨1, 2 * ((p.y / 2).toNat : Int) + 1, 0⟩⟩, ?_,
        (mem_d2 _ _).2 (by simp only; omega)⟩
      simp only [evenOddRows, List.mem_append, List.mem_map]
      exact Or.inl ⟨(p.y / 2).toNat, by simp; omega, rfl⟩
    · refine ⟨⟨⟨0, 2 * ((p.y / 2).toNat : Int) + 1, 0⟩, ⟨1, 2 * ((p.y / 2).toNat : Int) + 2, 0⟩⟩, ?_,
        (mem_d2 _ _).2 (by simp only; omega)⟩
      simp only [evenOddRows, List.mem_append, List.mem_map]
      exact Or.inr ⟨(p.y / 2).toNat, by simp; omega, rfl⟩

theorem subtractDim_len (rem : Box) (st : Box × List Box) (k : Nat) :
    (subtractDim rem st k).2.length ≤ st.2.length + 2 := by
  unfold subtractDim
  simp only
  split <;> split <;> simp

theorem subtract_len (d : Dims) (rem orig : Box) :
    (subtract d rem orig).length ≤ 2 * d.toNat := by
  have key : ∀ (ks : List Nat) (st : Box × List Box),
      (ks.foldl (subtractDim rem) st).2.length ≤ st.2.length + 2 * ks.length := by
    intro ks
    induction ks with
    | nil => intro st; simp
    | cons k ks ih =>
      intro st
      have h1 := subtractDim_len rem st k
      have h2 := ih (subtractDim rem st k)
      simp only [List.foldl_cons, List.length_cons]
      omega
  unfold subtract
  cases orig.intersect d rem with
  | none => cases d <;> simp [Dims.toNat]
  | some c => simpa using key (List.range d.toNat) (orig, [])

theorem flatMap_len {β γ : Type} (f : β → List γ) (n : Nat) (h : ∀ b, (f b).length ≤ n) :
    ∀ l : List β, (l.flatMap f).length ≤ l.length * n := by
  intro l
  induction l with
  | nil => simp
  | cons a t ih =>
    simp only [List.flatMap_cons, List.length_append, List.length_cons, Nat.succ_mul]
    have := h a
    omega

/-- C05 (partial: few ranges): the check gives an answer, and the right one, for a non-empty
space and non-empty ranges if there are at most 6, 3 or 2 of them for 1, 2 or 3 dimensions.
Missing: more ranges, for which the check may abort (`C05_abort_on_covered`). -/
theorem C05_few_partial (d : Dims) (space : Box) (ranges sorted : List Box)
    (hperm : sorted.Perm ranges) (hspace : ∃ p, Mem d space p)
    (hne : ∀ r ∈ ranges, ∃ p, Mem d r p)
    (hn : ranges.length ≤ match d with | .d1 => 6 | .d2 => 3 | .d3 => 2) :
    (coversSpace d space sorted = some true ∧ Covered d space ranges) ∨
    (coversSpace d space sorted = some false ∧ ¬ Covered d space ranges) := by
  have key : ∀ (rs nc : List Box) (m : Nat), rs.length ≤ m + 1 →
      nc.length * ((1 + 2 * d.toNat) * (2 * d.toNat) ^ m) ≤ 100 →
      coversLoop d nc rs ≠ none := by
    intro rs
    have hd : 0 < 2 * d.toNat := by cases d <;> simp [Dims.toNat]
    induction rs with
    | nil => intro nc m _ _; simp [coversLoop]
    | cons r rs ih =>
      intro nc m hl hb
      have hp := flatMap_len (subtract d r) (2 * d.toNat) (subtract_len d r) nc
      have h1 : 1 ≤ (2 * d.toNat) ^ m := Nat.one_le_pow _ _ hd
      have hsum : nc.length + (nc.flatMap (subtract d r)).length ≤ 100 := by
        have h2 : nc.length * ((1 + 2 * d.toNat) * 1) ≤
            nc.length * ((1 + 2 * d.toNat) * (2 * d.toNat) ^ m) :=
          Nat.mul_le_mul_left _ (Nat.mul_le_mul_left _ h1)
        rw [Nat.mul_one, Nat.mul_add, Nat.mul_one] at h2
        omega
      have hlim : ¬ nc.length + (nc.flatMap (subtract d r)).length > coverListMax := by
        simp only [coverListMax]
        omega
      simp only [coversLoop]
      rw [if_neg hlim]
      split
      · simp
      · cases m with
        | zero =>
          have : rs = [] := by
            simp only [List.length_cons] at hl
            exact List.length_eq_zero_iff.1 (by omega)
          subst this
          simp [coversLoop]
        | succ m =>
          apply ih _ m (by simp only [List.length_cons] at hl; omega)
          have h3 : (nc.flatMap (subtract d r)).length *
              ((1 + 2 * d.toNat) * (2 * d.toNat) ^ m) ≤
              nc.length * (2 * d.toNat) * ((1 + 2 * d.toNat) * (2 * d.toNat) ^ m) :=
            Nat.mul_le_mul_right _ hp
          have h4 : nc.length * (2 * d.toNat) * ((1 + 2 * d.toNat) * (2 * d.toNat) ^ m) =
              nc.length * ((1 + 2 * d.toNat) * (2 * d.toNat) ^ (m + 1)) := by
            rw [Nat.pow_succ, Nat.mul_assoc]
            congr 1
            rw [Nat.mul_left_comm]
            congr 1
            exact Nat.mul_comm _ _
          omega
  have hnone : coversSpace d space sorted ≠ none := by
    have hl := hperm.length_eq
    unfold coversSpace
    cases d with
    | d1 => exact key sorted [space] 5 (by simp only at hn; omega) (by simp [Dims.toNat])
    | d2 => exact key sorted [space] 2 (by simp only at hn; omega) (by simp [Dims.toNat])
    | d3 => exact key sorted [space] 1 (by simp only at hn; omega) (by simp [Dims.toNat])
  cases h : coversSpace d space sorted with
  | none => exact absurd h hnone
  | some b =>
    cases b with
    | true => exact Or.inl ⟨rfl, C04_covers_sound d space ranges sorted hperm h⟩
    | false =>
      exact Or.inr ⟨rfl, C05_covers_complete_partial d space ranges sorted hperm hspace hne h⟩

example : coversSpace .d2 ⟨⟨0,0,0⟩,⟨4,4,0⟩⟩
    [⟨⟨0,0,0⟩,⟨4,2,0⟩⟩, ⟨⟨0,1,0⟩,⟨3,4,0⟩⟩, ⟨⟨3,2,0⟩,⟨4,4,0⟩⟩] = some true := by decide
example : coversSpace .d2 ⟨⟨0,0,0⟩,⟨4,4,0⟩⟩
    [⟨⟨0,0,0⟩,⟨4,2,0⟩⟩, ⟨⟨0,1,0⟩,⟨3,4,0⟩⟩, ⟨⟨3,3,0⟩,⟨4,4,0⟩⟩] = some false := by decide
example : coversSpace .d1 ⟨⟨0,0,0⟩,⟨9,0,0⟩⟩ [⟨⟨0,0,0⟩,⟨5,0,0⟩⟩, ⟨⟨3,0,0⟩,⟨9,0,0⟩⟩] = some true := by
  decide

end Laik
