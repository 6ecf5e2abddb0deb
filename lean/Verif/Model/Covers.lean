import Verif.Model.Range
/-!
# Model of `laik_rangelist_coversSpace` (`src/rangelist.c` 161-303)
-/

namespace Laik

/-- `COVERLIST_MAX`, src/rangelist.c 167. -/
def coverListMax : Nat := 100

/-- One iteration of the loop over dimensions, src/rangelist.c 260-278:
state is the remaining part of `orig` and the pieces appended so far. -/
def subtractDim (rem : Box) (st : Box × List Box) (k : Nat) : Box × List Box :=
  let o := st.1
  let ps := st.2
  let st1 :=
    if o.lo.get k < rem.lo.get k then
      ({ o with lo := o.lo.set k (rem.lo.get k) },
       ps ++ [{ o with hi := o.hi.set k (rem.lo.get k) }])
    else (o, ps)
  let o := st1.1
  let ps := st1.2
  if o.hi.get k > rem.hi.get k then
    ({ o with hi := o.hi.set k (rem.hi.get k) },
     ps ++ [{ o with lo := o.lo.set k (rem.hi.get k) }])
  else (o, ps)

/-- Pieces appended to the not-covered list for one entry `orig`,
src/rangelist.c 251-278. -/
def subtract (d : Dims) (rem orig : Box) : List Box :=
  match orig.intersect d rem with
  | none => [orig]
  | some _ => ((List.range d.toNat).foldl (subtractDim rem) (orig, [])).2

/-- The loop over the (copied and sorted) ranges, src/rangelist.c 236-302, for
the not-covered list `nc`.  `none`: failed
`assert(notcovered_count < COVERLIST_MAX)` (173); as the count only grows
within one iteration this fails iff old plus appended entries exceed the
maximum. -/
def coversLoop (d : Dims) (nc : List Box) : List Box → Option Bool
  | [] => some nc.isEmpty
  | rem :: rs =>
    let pieces := nc.flatMap (subtract d rem)
    if nc.length + pieces.length > coverListMax then none
    else if pieces.isEmpty then some true
    else coversLoop d pieces rs

/-- `trgen_cmpfrom` order used by `qsort`, src/rangelist.c 195-202: only the
first coordinate of `from` counts, so `qsort` may return any permutation
sorted by it. -/
def SortedByFrom (l : List Box) : Prop := l.Pairwise (fun a b => a.lo.x ≤ b.lo.x)

/-- `laik_rangelist_coversSpace`, src/rangelist.c 216-303, where `sorted` is
the result of `qsort` on the ranges of the list. -/
def coversSpace (d : Dims) (space : Box) (sorted : List Box) : Option Bool :=
  coversLoop d [space] sorted

/-! ### Helper lemmas -/

theorem Idx.get_set_self (p : Idx) (k : Nat) (v : Int) (h : k < 3) : (p.set k v).get k = v := by
  rw [Idx.get_set p k k v h h]; simp

theorem Idx.get_set_ne (p : Idx) (k j : Nat) (v : Int) (h : k < 3) (hj : j < 3) (hne : j ≠ k) :
    (p.set k v).get j = p.get j := by
  rw [Idx.get_set p k j v h hj]; simp [hne]

/-- Membership after restricting the upper bound in dimension `k`. -/
theorem mem_setHi (d : Dims) (o : Box) (k : Nat) (hk : k < d.toNat) (v : Int) (p : Idx) :
    Mem d { o with hi := o.hi.set k v } p ↔
      (∀ j, j < d.toNat → j ≠ k → o.lo.get j ≤ p.get j ∧ p.get j < o.hi.get j) ∧
      o.lo.get k ≤ p.get k ∧ p.get k < v := by
  have h3 := d.toNat_le
  constructor
  · intro h
    refine ⟨fun j hj hne => ?_, ?_⟩
    · have := h j hj; simp only at this
      rw [Idx.get_set_ne _ _ _ _ (by omega) (by omega) hne] at this; exact this
    · have := h k hk; simp only at this
      rw [Idx.get_set_self _ _ _ (by omega)] at this; exact this
  · rintro ⟨h1, h2⟩ j hj
    simp only
    by_cases hne : j = k
    · subst hne; rw [Idx.get_set_self _ _ _ (by omega)]; exact h2
    · rw [Idx.get_set_ne _ _ _ _ (by omega) (by omega) hne]; exact h1 j hj hne

theorem mem_setLo (d : Dims) (o : Box) (k : Nat) (hk : k < d.toNat) (v : Int) (p : Idx) :
    Mem d { o with lo := o.lo.set k v } p ↔
      (∀ j, j < d.toNat → j ≠ k → o.lo.get j ≤ p.get j ∧ p.get j < o.hi.get j) ∧
      v ≤ p.get k ∧ p.get k < o.hi.get k := by
  have h3 := d.toNat_le
  constructor
  · intro h
    refine ⟨fun j hj hne => ?_, ?_⟩
    · have := h j hj; simp only at this
      rw [Idx.get_set_ne _ _ _ _ (by omega) (by omega) hne] at this; exact this
    · have := h k hk; simp only at this
      rw [Idx.get_set_self _ _ _ (by omega)] at this; exact this
  · rintro ⟨h1, h2⟩ j hj
    simp only
    by_cases hne : j = k
    · subst hne; rw [Idx.get_set_self _ _ _ (by omega)]; exact h2
    · rw [Idx.get_set_ne _ _ _ _ (by omega) (by omega) hne]; exact h1 j hj hne

theorem mem_split (d : Dims) (o : Box) (k : Nat) (hk : k < d.toNat) (p : Idx) :
    Mem d o p ↔
      (∀ j, j < d.toNat → j ≠ k → o.lo.get j ≤ p.get j ∧ p.get j < o.hi.get j) ∧
      o.lo.get k ≤ p.get k ∧ p.get k < o.hi.get k := by
  constructor
  · intro h; exact ⟨fun j hj _ => h j hj, h k hk⟩
  · rintro ⟨h1, h2⟩ j hj
    by_cases hne : j = k
    · subst hne; exact h2
    · exact h1 j hj hne

/-- Soundness of one dimension: nothing outside `rem` is lost, and afterwards
the remaining part lies within `rem` in this dimension while bounds of other
dimensions are unchanged. -/
theorem subtractDim_cover (d : Dims) (rem : Box) (st : Box × List Box) (k : Nat)
    (hk : k < d.toNat) (p : Idx)
    (hp : Mem d st.1 p ∨ ∃ q ∈ st.2, Mem d q p) :
    (Mem d (subtractDim rem st k).1 p ∨ ∃ q ∈ (subtractDim rem st k).2, Mem d q p) := by
  obtain ⟨o, ps⟩ := st
  have h3 := d.toNat_le
  simp only [subtractDim]
  simp only at hp
  -- first half
  generalize hst1 : (if o.lo.get k < rem.lo.get k then
      (({ o with lo := o.lo.set k (rem.lo.get k) } : Box),
       ps ++ [{ o with hi := o.hi.set k (rem.lo.get k) }])
    else (o, ps)) = st1
  have h1 : Mem d st1.1 p ∨ ∃ q ∈ st1.2, Mem d q p := by
    subst hst1
    split
    · rcases hp with hp | ⟨q, hq, hm⟩
      · rw [mem_split d o k hk] at hp
        by_cases hlt : p.get k < rem.lo.get k
        · right
          exact ⟨_, List.mem_append_right _ (List.mem_singleton_self _), (mem_setHi d o k hk _ p).2 ⟨hp.1, hp.2.1, hlt⟩⟩
        · left
          exact (mem_setLo d o k hk _ p).2 ⟨hp.1, by omega, hp.2.2⟩
      · right; exact ⟨q, by simp [hq], hm⟩
    · exact hp
  clear hst1 hp
  obtain ⟨o, ps⟩ := st1
  simp only at h1 ⊢
  split
  · rcases h1 with hp | ⟨q, hq, hm⟩
    · rw [mem_split d o k hk] at hp
      by_cases hlt : p.get k < rem.hi.get k
      · left
        exact (mem_setHi d o k hk _ p).2 ⟨hp.1, hp.2.1, hlt⟩
      · right
        exact ⟨_, List.mem_append_right _ (List.mem_singleton_self _), (mem_setLo d o k hk _ p).2 ⟨hp.1, by omega, hp.2.2⟩⟩
    · right; exact ⟨q, by simp [hq], hm⟩
  · exact h1

theorem subtractDim_bounds (d : Dims) (rem : Box) (st : Box × List Box) (k : Nat)
    (hk : k < d.toNat) :
    (rem.lo.get k ≤ (subtractDim rem st k).1.lo.get k ∧
     (subtractDim rem st k).1.hi.get k ≤ rem.hi.get k) ∧
    ∀ j, j < d.toNat → j ≠ k →
      (subtractDim rem st k).1.lo.get j = st.1.lo.get j ∧
      (subtractDim rem st k).1.hi.get j = st.1.hi.get j := by
  obtain ⟨o, ps⟩ := st
  have h3 := d.toNat_le
  simp only [subtractDim]
  constructor
  · split <;> split <;> simp_all [Idx.get_set_self _ k _ (by omega : k < 3)] <;> omega
  · intro j hj hne
    split <;> split <;> simp [Idx.get_set_ne _ k j _ (by omega) (by omega) hne]

theorem foldl_subtract_cover (d : Dims) (rem : Box) (ks : List Nat) (st : Box × List Box)
    (hks : ∀ k ∈ ks, k < d.toNat) (p : Idx)
    (hp : Mem d st.1 p ∨ ∃ q ∈ st.2, Mem d q p) :
    (Mem d (ks.foldl (subtractDim rem) st).1 p ∨
      ∃ q ∈ (ks.foldl (subtractDim rem) st).2, Mem d q p) := by
  induction ks generalizing st with
  | nil => exact hp
  | cons k ks ih =>
    simp only [List.foldl_cons]
    exact ih _ (fun k hk => hks k (by simp [hk]))
      (subtractDim_cover d rem st k (hks k (by simp)) p hp)

theorem foldl_subtract_bounds (d : Dims) (rem : Box) (ks : List Nat) (st : Box × List Box)
    (hks : ∀ k ∈ ks, k < d.toNat) :
    ∀ j, j < d.toNat →
      (j ∈ ks ∨ (rem.lo.get j ≤ st.1.lo.get j ∧ st.1.hi.get j ≤ rem.hi.get j)) →
      rem.lo.get j ≤ (ks.foldl (subtractDim rem) st).1.lo.get j ∧
      (ks.foldl (subtractDim rem) st).1.hi.get j ≤ rem.hi.get j := by
  induction ks generalizing st with
  | nil => intro j hj h; simpa using h
  | cons k ks ih =>
    intro j hj h
    simp only [List.foldl_cons]
    apply ih _ (fun k hk => hks k (by simp [hk])) j hj
    have hb := subtractDim_bounds d rem st k (hks k (by simp))
    by_cases hjk : j = k
    · subst hjk; right; exact hb.1
    · rcases h with h | h
      · left; simpa [hjk] using h
      · right; have := hb.2 j hj hjk; omega

theorem subtract_cover (d : Dims) (rem orig : Box) (p : Idx) (hp : Mem d orig p) :
    Mem d rem p ∨ ∃ q ∈ subtract d rem orig, Mem d q p := by
  unfold subtract
  cases h : orig.intersect d rem with
  | none => right; exact ⟨orig, by simp, hp⟩
  | some c =>
    simp only
    have hks : ∀ k ∈ List.range d.toNat, k < d.toNat := fun k hk => by simpa using hk
    rcases foldl_subtract_cover d rem (List.range d.toNat) (orig, []) hks p (Or.inl hp) with h1 | h1
    · left
      intro k hk
      have := foldl_subtract_bounds d rem (List.range d.toNat) (orig, []) hks k hk (by simp [hk])
      have := h1 k hk
      omega
    · right; exact h1

/-! Completeness side: appended pieces are non-empty, inside the original and
outside of `rem`. -/

theorem subtractDim_inner (d : Dims) (rem : Box) (o0 : Box) (st : Box × List Box) (k : Nat)
    (hk : k < d.toNat)
    (hover : ∀ j, j < d.toNat → st.1.lo.get j < rem.hi.get j ∧ rem.lo.get j < st.1.hi.get j)
    (hne : ∀ j, j < d.toNat → st.1.lo.get j < st.1.hi.get j)
    (hrem : ∀ j, j < d.toNat → rem.lo.get j < rem.hi.get j)
    (hsub : ∀ p, Mem d st.1 p → Mem d o0 p)
    (hps : ∀ q ∈ st.2, (∃ p, Mem d q p) ∧ ∀ p, Mem d q p → Mem d o0 p ∧ ¬ Mem d rem p) :
    (∀ j, j < d.toNat → (subtractDim rem st k).1.lo.get j < rem.hi.get j ∧
        rem.lo.get j < (subtractDim rem st k).1.hi.get j) ∧
    (∀ j, j < d.toNat → (subtractDim rem st k).1.lo.get j < (subtractDim rem st k).1.hi.get j) ∧
    (∀ p, Mem d (subtractDim rem st k).1 p → Mem d o0 p) ∧
    (∀ q ∈ (subtractDim rem st k).2,
      (∃ p, Mem d q p) ∧ ∀ p, Mem d q p → Mem d o0 p ∧ ¬ Mem d rem p) := by
  obtain ⟨o, ps⟩ := st
  have h3 := d.toNat_le
  simp only [subtractDim]
  simp only at hover hne hsub hps
  generalize hst1 : (if o.lo.get k < rem.lo.get k then
      (({ o with lo := o.lo.set k (rem.lo.get k) } : Box),
       ps ++ [{ o with hi := o.hi.set k (rem.lo.get k) }])
    else (o, ps)) = st1
  have h1 : (∀ j, j < d.toNat → st1.1.lo.get j < rem.hi.get j ∧ rem.lo.get j < st1.1.hi.get j) ∧
    (∀ j, j < d.toNat → st1.1.lo.get j < st1.1.hi.get j) ∧
    (∀ p, Mem d st1.1 p → Mem d o0 p) ∧
    (∀ q ∈ st1.2, (∃ p, Mem d q p) ∧ ∀ p, Mem d q p → Mem d o0 p ∧ ¬ Mem d rem p) := by
    subst hst1
    split
    · rename_i hlt
      refine ⟨?_, ?_, ?_, ?_⟩
      · intro j hj; simp only
        by_cases hjk : j = k
        · subst hjk; rw [Idx.get_set_self _ _ _ (by omega)]
          have := hover j hj; have := hrem j hj; omega
        · rw [Idx.get_set_ne _ _ _ _ (by omega) (by omega) hjk]; exact hover j hj
      · intro j hj; simp only
        by_cases hjk : j = k
        · subst hjk; rw [Idx.get_set_self _ _ _ (by omega)]
          have := hover j hj; omega
        · rw [Idx.get_set_ne _ _ _ _ (by omega) (by omega) hjk]; exact hne j hj
      · intro p hp
        simp only at hp
        rw [mem_setLo d o k hk] at hp
        exact hsub p ((mem_split d o k hk p).2 ⟨hp.1, by omega, hp.2.2⟩)
      · intro q hq
        simp only [List.mem_append, List.mem_singleton] at hq
        rcases hq with hq | rfl
        · exact hps q hq
        · constructor
          · refine ⟨o.lo, (mem_setHi d o k hk _ _).2 ⟨fun j hj _ => ?_, by omega, hlt⟩⟩
            have := hne j hj; omega
          · intro p hp
            rw [mem_setHi d o k hk] at hp
            have := hover k hk
            refine ⟨hsub p ((mem_split d o k hk p).2 ⟨hp.1, hp.2.1, by omega⟩), fun hr => ?_⟩
            have := hr k hk; omega
    · exact ⟨hover, hne, hsub, hps⟩
  clear hst1 hps hsub hne hover
  obtain ⟨o, ps⟩ := st1
  obtain ⟨hover, hne, hsub, hps⟩ := h1
  simp only at hover hne hsub hps ⊢
  split
  · rename_i hlt
    refine ⟨?_, ?_, ?_, ?_⟩
    · intro j hj; simp only
      by_cases hjk : j = k
      · subst hjk; rw [Idx.get_set_self _ _ _ (by omega)]
        have := hover j hj; have := hrem j hj; omega
      · rw [Idx.get_set_ne _ _ _ _ (by omega) (by omega) hjk]; exact hover j hj
    · intro j hj; simp only
      by_cases hjk : j = k
      · subst hjk; rw [Idx.get_set_self _ _ _ (by omega)]
        have := hover j hj; omega
      · rw [Idx.get_set_ne _ _ _ _ (by omega) (by omega) hjk]; exact hne j hj
    · intro p hp
      simp only at hp
      rw [mem_setHi d o k hk] at hp
      exact hsub p ((mem_split d o k hk p).2 ⟨hp.1, hp.2.1, by omega⟩)
    · intro q hq
      simp only [List.mem_append, List.mem_singleton] at hq
      rcases hq with hq | rfl
      · exact hps q hq
      · constructor
        · refine ⟨o.lo.set k (rem.hi.get k), (mem_setLo d o k hk _ _).2 ⟨fun j hj hjk => ?_, ?_⟩⟩
          · rw [Idx.get_set_ne _ _ _ _ (by omega) (by omega) hjk]; have := hne j hj; omega
          · rw [Idx.get_set_self _ _ _ (by omega)]; omega
        · intro p hp
          rw [mem_setLo d o k hk] at hp
          have := hover k hk
          refine ⟨hsub p ((mem_split d o k hk p).2 ⟨hp.1, by omega, hp.2.2⟩), fun hr => ?_⟩
          have := hr k hk; omega
  · exact ⟨hover, hne, hsub, hps⟩

theorem foldl_subtract_inner (d : Dims) (rem : Box) (o0 : Box) (ks : List Nat)
    (st : Box × List Box) (hks : ∀ k ∈ ks, k < d.toNat)
    (hover : ∀ j, j < d.toNat → st.1.lo.get j < rem.hi.get j ∧ rem.lo.get j < st.1.hi.get j)
    (hne : ∀ j, j < d.toNat → st.1.lo.get j < st.1.hi.get j)
    (hrem : ∀ j, j < d.toNat → rem.lo.get j < rem.hi.get j)
    (hsub : ∀ p, Mem d st.1 p → Mem d o0 p)
    (hps : ∀ q ∈ st.2, (∃ p, Mem d q p) ∧ ∀ p, Mem d q p → Mem d o0 p ∧ ¬ Mem d rem p) :
    ∀ q ∈ (ks.foldl (subtractDim rem) st).2,
      (∃ p, Mem d q p) ∧ ∀ p, Mem d q p → Mem d o0 p ∧ ¬ Mem d rem p := by
  induction ks generalizing st with
  | nil => exact hps
  | cons k ks ih =>
    simp only [List.foldl_cons]
    obtain ⟨h1, h2, h3, h4⟩ := subtractDim_inner d rem o0 st k (hks k (by simp)) hover hne hrem hsub hps
    exact ih _ (fun k hk => hks k (by simp [hk])) h1 h2 h3 h4

theorem nonempty_dims {d : Dims} {b : Box} (h : ∃ p, Mem d b p) :
    ∀ j, j < d.toNat → b.lo.get j < b.hi.get j := by
  obtain ⟨p, hp⟩ := h
  intro j hj; have := hp j hj; omega

theorem intersect_over {d : Dims} {a b c : Box} (ha : ∃ p, Mem d a p) (hb : ∃ p, Mem d b p)
    (h : a.intersect d b = some c) :
    ∀ j, j < d.toNat → a.lo.get j < b.hi.get j ∧ b.lo.get j < a.hi.get j := by
  obtain ⟨p, hp⟩ := (not_isEmpty_iff d c).1
    (intersect_nonempty d a b c ((not_isEmpty_iff d a).2 ha) ((not_isEmpty_iff d b).2 hb) h)
  have := (intersect_mem d a b c h p).1 hp
  intro j hj
  have h1 := this.1 j hj; have h2 := this.2 j hj
  omega

theorem subtract_inner (d : Dims) (rem orig : Box) (hrem : ∃ p, Mem d rem p)
    (horig : ∃ p, Mem d orig p) :
    ∀ q ∈ subtract d rem orig,
      (∃ p, Mem d q p) ∧ ∀ p, Mem d q p → Mem d orig p ∧ ¬ Mem d rem p := by
  unfold subtract
  cases h : orig.intersect d rem with
  | none =>
    intro q hq
    simp at hq; subst hq
    exact ⟨horig, fun p hp => ⟨hp, fun hr => intersect_none d q rem h p ⟨hp, hr⟩⟩⟩
  | some c =>
    simp only
    exact foldl_subtract_inner d rem orig _ (orig, []) (fun k hk => by simpa using hk)
      (intersect_over horig hrem h) (nonempty_dims horig) (nonempty_dims hrem)
      (fun p hp => hp) (by simp)

theorem coversLoop_sound (d : Dims) (rs nc : List Box) (h : coversLoop d nc rs = some true)
    (p : Idx) (hp : ∃ q ∈ nc, Mem d q p) : ∃ r ∈ rs, Mem d r p := by
  induction rs generalizing nc with
  | nil =>
    simp only [coversLoop, Option.some.injEq, List.isEmpty_iff] at h
    subst h; simp at hp
  | cons rem rs ih =>
    simp only [coversLoop] at h
    split at h; · simp at h
    obtain ⟨q, hq, hm⟩ := hp
    rcases subtract_cover d rem q p hm with h1 | ⟨q', hq', hm'⟩
    · exact ⟨rem, by simp, h1⟩
    · have hmem : q' ∈ nc.flatMap (subtract d rem) := List.mem_flatMap.2 ⟨q, hq, hq'⟩
      split at h
      · rename_i he
        rw [List.isEmpty_iff] at he; rw [he] at hmem; simp at hmem
      · obtain ⟨r, hr, hm2⟩ := ih _ h ⟨q', hmem, hm'⟩
        exact ⟨r, by simp [hr], hm2⟩

theorem coversLoop_complete (d : Dims) (rs nc : List Box) (h : coversLoop d nc rs = some false)
    (hnc : nc ≠ []) (hne : ∀ q ∈ nc, ∃ p, Mem d q p) (hrs : ∀ r ∈ rs, ∃ p, Mem d r p) :
    ∃ p, (∃ q ∈ nc, Mem d q p) ∧ ∀ r ∈ rs, ¬ Mem d r p := by
  induction rs generalizing nc with
  | nil =>
    cases nc with
    | nil => exact absurd rfl hnc
    | cons q nc =>
      obtain ⟨p, hp⟩ := hne q (by simp)
      exact ⟨p, ⟨q, by simp, hp⟩, by simp⟩
  | cons rem rs ih =>
    simp only [coversLoop] at h
    split at h; · simp at h
    split at h; · simp at h
    rename_i hpe
    have hin : ∀ q' ∈ nc.flatMap (subtract d rem), ∃ q ∈ nc,
        (∃ p, Mem d q' p) ∧ ∀ p, Mem d q' p → Mem d q p ∧ ¬ Mem d rem p := by
      intro q' hq'
      obtain ⟨q, hq, hq2⟩ := List.mem_flatMap.1 hq'
      exact ⟨q, hq, subtract_inner d rem q (hrs rem (by simp)) (hne q hq) q' hq2⟩
    obtain ⟨p, ⟨q', hq', hm⟩, hr⟩ := ih _ h (by simpa [List.isEmpty_iff] using hpe)
      (fun q' hq' => (hin q' hq').choose_spec.2.1) (fun r hr => hrs r (by simp [hr]))
    obtain ⟨q, hq, _, h2⟩ := hin q' hq'
    refine ⟨p, ⟨q, hq, (h2 p hm).1⟩, fun r hr' => ?_⟩
    simp only [List.mem_cons] at hr'
    rcases hr' with rfl | hr'
    · exact (h2 p hm).2
    · exact hr r hr'

end Laik
