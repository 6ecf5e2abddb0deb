import Verif.Model.Reserve
import Verif.Props.Layout
import Mathlib.Data.List.Basic
/-!
# Lemmas on reservations
-/

namespace Laik.Res
open Lay

/-- `c` is the smallest box containing all boxes of `S` (all not empty, and at
least one). -/
structure Hull (d : Dims) (S : List Box) (c : Box) : Prop where
  ne : S ≠ []
  nonempty : ∀ b ∈ S, ∃ p, Mem d b p
  ge : ∀ b ∈ S, ∀ k, k < d.toNat → c.lo.get k ≤ b.lo.get k ∧ b.hi.get k ≤ c.hi.get k
  lo : ∀ k, k < d.toNat → ∃ b ∈ S, b.lo.get k = c.lo.get k
  hi : ∀ k, k < d.toNat → ∃ b ∈ S, b.hi.get k = c.hi.get k

theorem Hull.mem {d : Dims} {S : List Box} {c : Box} (h : Hull d S c) {b : Box} (hb : b ∈ S)
    {p : Idx} (hp : Mem d b p) : Mem d c p := by
  intro k hk
  have := h.ge b hb k hk; have := hp k hk; omega

theorem Hull.exists_mem {d : Dims} {S : List Box} {c : Box} (h : Hull d S c) : ∃ p, Mem d c p := by
  obtain ⟨b, hb⟩ := List.exists_mem_of_ne_nil S h.ne
  obtain ⟨p, hp⟩ := h.nonempty b hb
  exact ⟨p, h.mem hb hp⟩

theorem Hull.least {d : Dims} {S : List Box} {c : Box} (h : Hull d S c) {e : Box}
    (he : ∀ b ∈ S, SubsetOf d b e) : SubsetOf d c e := by
  intro p hp k hk
  obtain ⟨a, ha, ha'⟩ := h.lo k hk
  obtain ⟨b, hb, hb'⟩ := h.hi k hk
  have q1 := (subset_iff d a e (h.nonempty a ha)).1 (he a ha) k hk
  have q2 := (subset_iff d b e (h.nonempty b hb)).1 (he b hb) k hk
  have := hp k hk
  omega

theorem Hull.within {d : Dims} {S : List Box} {c : Box} (h : Hull d S c) {b : Box} (hb : b ∈ S) :
    b.within d c = true := by
  rw [within_iff_dims]
  intro k hk _
  exact h.ge b hb k hk

theorem hull_single {d : Dims} {b : Box} (hb : ∃ p, Mem d b p) : Hull d [b] b :=
  ⟨by simp, by simpa using hb, by simp, by simp, by simp⟩

theorem hull_extend {d : Dims} {S : List Box} {c b : Box} (h : Hull d S c) (hb : ∃ p, Mem d b p) :
    Hull d (S ++ [b]) (extend d (some c) b) := by
  have hc : c.isEmpty d = false := (not_isEmpty_iff d c).2 h.exists_mem
  simp only [extend, hc, Bool.false_eq_true, if_false]
  refine ⟨by simp, ?_, ?_, ?_, ?_⟩
  · intro x hx
    rcases List.mem_append.mp hx with hx | hx
    · exact h.nonempty x hx
    · simp at hx; subst hx; exact hb
  · intro x hx k hk
    obtain ⟨e1, e2⟩ := expand_get d c b k hk
    rcases List.mem_append.mp hx with hx | hx
    · have := h.ge x hx k hk; omega
    · simp at hx; subst hx; omega
  · intro k hk
    obtain ⟨e1, e2⟩ := expand_get d c b k hk
    obtain ⟨x, hx, hx'⟩ := h.lo k hk
    by_cases hle : c.lo.get k ≤ b.lo.get k
    · exact ⟨x, by simp [hx], by omega⟩
    · exact ⟨b, by simp, by omega⟩
  · intro k hk
    obtain ⟨e1, e2⟩ := expand_get d c b k hk
    obtain ⟨x, hx, hx'⟩ := h.hi k hk
    by_cases hle : b.hi.get k ≤ c.hi.get k
    · exact ⟨x, by simp [hx], by omega⟩
    · exact ⟨b, by simp, by omega⟩

/-- Hulls of parts have the hull of the whole. -/
theorem hull_flat {d : Dims} {S : List Box} {T : List (List Box × Box)} {c : Box}
    (hT : ∀ x ∈ T, Hull d x.1 x.2) (hc : Hull d (T.map (·.2)) c)
    (hS : ∀ b, b ∈ S ↔ ∃ x ∈ T, b ∈ x.1) : Hull d S c := by
  refine ⟨?_, ?_, ?_, ?_, ?_⟩
  · intro hnil
    obtain ⟨b, hb⟩ := List.exists_mem_of_ne_nil _ hc.ne
    obtain ⟨x, hx, -⟩ := List.mem_map.mp hb
    obtain ⟨e, he⟩ := List.exists_mem_of_ne_nil _ (hT x hx).ne
    have : e ∈ S := (hS e).2 ⟨x, hx, he⟩
    rw [hnil] at this; cases this
  · intro b hb
    obtain ⟨x, hx, hbx⟩ := (hS b).1 hb
    exact (hT x hx).nonempty b hbx
  · intro b hb k hk
    obtain ⟨x, hx, hbx⟩ := (hS b).1 hb
    have := (hT x hx).ge b hbx k hk
    have := hc.ge x.2 (List.mem_map.mpr ⟨x, hx, rfl⟩) k hk
    omega
  · intro k hk
    obtain ⟨b, hb, hb'⟩ := hc.lo k hk
    obtain ⟨x, hx, rfl⟩ := List.mem_map.mp hb
    obtain ⟨e, he, he'⟩ := (hT x hx).lo k hk
    exact ⟨e, (hS e).2 ⟨x, hx, he⟩, by omega⟩
  · intro k hk
    obtain ⟨b, hb, hb'⟩ := hc.hi k hk
    obtain ⟨x, hx, rfl⟩ := List.mem_map.mp hb
    obtain ⟨e, he, he'⟩ := (hT x hx).hi k hk
    exact ⟨e, (hS e).2 ⟨x, hx, he⟩, by omega⟩

theorem nonempty_of_size {d : Dims} {b : Box} {n : Nat} (h : b.size d = some n) (hn : n ≠ 0) :
    ∃ p, Mem d b p := by
  rw [← not_isEmpty_iff]
  rw [Bool.eq_false_iff]
  intro he
  apply hn
  cases d
  · rw [isEmpty_d1] at he
    simp only [Box.size, Dims.toNat] at h
    split at h
    · cases h
    · simp at h; omega
  · rw [isEmpty_d2] at he
    simp only [Box.size, Dims.toNat] at h
    split at h
    · cases h
    · simp at h
      rw [← h.2, Nat.mul_eq_zero]
      omega
  · rw [isEmpty_d3] at he
    simp only [Box.size, Dims.toNat] at h
    split at h
    · cases h
    · simp at h
      rw [← h.2.2, Nat.mul_eq_zero, Nat.mul_eq_zero]
      omega

theorem size_of_nonempty {d : Dims} {b : Box} (h : ∃ p, Mem d b p) :
    ∃ n, b.size d = some n ∧ n ≠ 0 := by
  have h5 := length_boxPts d b ((not_isEmpty_iff d b).2 h)
  refine ⟨_, h5, ?_⟩
  have hlo := mem_lo_of_nonempty d b ((not_isEmpty_iff d b).2 h)
  have := (mem_boxPts d b (canon d b.lo)).2 ⟨(mem_canon d b b.lo).2 hlo, canon_canon d b.lo⟩
  intro hz
  rw [List.length_eq_zero_iff.mp hz] at this
  cases this

/-! ### Ranges of one map -/

theorem coverLoop_spec {d : Dims} {tag : Int} : ∀ {ts : List TR} {c b : Box} {S : List Box},
    Hull d S c → coverLoop d tag (some c) ts = some (some b) →
    Hull d (S ++ ts.map TR.box) b ∧ ∀ t ∈ ts, t.tag = tag := by
  intro ts
  induction ts with
  | nil =>
    intro c b S hS h
    simp only [coverLoop, Option.some.injEq] at h
    subst h
    simpa using hS
  | cons t ts ih =>
    intro c b S hS h
    simp only [coverLoop] at h
    split at h
    · cases h
    · rename_i htag
      split at h
      · cases h
      · rename_i n hn
        split at h
        · cases h
        · rename_i hz
          obtain ⟨h1, h2⟩ := ih (hull_extend hS (nonempty_of_size hn hz)) h
          refine ⟨by simpa using h1, ?_⟩
          intro x hx
          rcases List.mem_cons.mp hx with rfl | hx
          · simpa using htag
          · exact h2 x hx

theorem coverLoop_none_spec {d : Dims} {tag : Int} {ts : List TR} {b : Box}
    (h : coverLoop d tag none ts = some (some b)) :
    Hull d (ts.map TR.box) b ∧ ∀ t ∈ ts, t.tag = tag := by
  cases ts with
  | nil => simp [coverLoop] at h
  | cons t ts =>
    simp only [coverLoop] at h
    split at h
    · cases h
    · rename_i htag
      split at h
      · cases h
      · rename_i n hn
        split at h
        · cases h
        · rename_i hz
          obtain ⟨h1, h2⟩ := coverLoop_spec (hull_single (nonempty_of_size hn hz)) h
          refine ⟨by simpa using h1, ?_⟩
          intro x hx
          rcases List.mem_cons.mp hx with rfl | hx
          · simpa using htag
          · exact h2 x hx

theorem coverLoop_defined {d : Dims} {tag : Int} : ∀ {ts : List TR} {cur : Option Box},
    (∀ t ∈ ts, t.tag = tag ∧ ∃ p, Mem d t.box p) → (cur ≠ none ∨ ts ≠ []) →
    ∃ b, coverLoop d tag cur ts = some (some b) := by
  intro ts
  induction ts with
  | nil =>
    intro cur _ hc
    rcases cur with _ | c
    · simp at hc
    · exact ⟨c, rfl⟩
  | cons t ts ih =>
    intro cur h _
    obtain ⟨h1, h2⟩ := h t (by simp)
    obtain ⟨n, hn, hz⟩ := size_of_nonempty h2
    simp only [coverLoop, h1, ne_eq, not_true_eq_false, if_false, hn, hz]
    exact ih (fun x hx => h x (by simp [hx])) (Or.inl (by simp))

/-! ### Numbering -/

theorem nextNo_spec (tag last no : Int) :
    no ≤ nextNo tag last no ∧ (tag = last ↔ nextNo tag last no = no) ∧
      nextNo tag last no ≤ no + 1 := by
  unfold nextNo
  by_cases hg : tag = last
  · simp [hg]; omega
  · simp [hg]; omega

theorem numberGrps_fst : ∀ {gl : List Grp} {last no : Int} {ng : List (Grp × Int)},
    numberGrps last no gl = some ng → ng.map (·.1) = gl := by
  intro gl
  induction gl with
  | nil => intro last no ng h; simp [numberGrps] at h; subst h; rfl
  | cons g gl ih =>
    intro last no ng h
    simp only [numberGrps] at h
    split at h
    · cases h
    · rcases hr : numberGrps g.tag (nextNo g.tag last no) gl with _ | r
      · rw [hr] at h; cases h
      · rw [hr] at h
        simp only [Option.map_some, Option.some.injEq] at h
        subst h
        simp [ih hr]

theorem numberGrps_spec : ∀ {gl : List Grp} {last no : Int} {ng : List (Grp × Int)},
    gl.Pairwise (fun a b => a.tag ≤ b.tag) → (∀ g ∈ gl, last ≤ g.tag) → 0 ≤ no →
    numberGrps last no gl = some ng →
    (∀ x ∈ ng, no ≤ x.2 ∧ (x.1.tag = last ↔ x.2 = no)) ∧
    ng.Pairwise (fun a b => a.2 ≤ b.2 ∧ (a.1.tag = b.1.tag ↔ a.2 = b.2)) ∧
    (∀ x, ng.getLast? = some x → ∀ k, no < k → k ≤ x.2 → ∃ y ∈ ng, y.2 = k) := by
  intro gl
  induction gl with
  | nil => intro last no ng _ _ _ h; simp [numberGrps] at h; subst h; simp
  | cons g gl ih =>
    intro last no ng hs hl h0 h
    simp only [List.pairwise_cons] at hs
    simp only [numberGrps] at h
    have hgl := hl g (by simp)
    split at h
    · cases h
    · rcases hr : numberGrps g.tag (nextNo g.tag last no) gl with _ | r
      · rw [hr] at h; cases h
      · rw [hr] at h
        simp only [Option.map_some, Option.some.injEq] at h
        subst h
        have hno := nextNo_spec g.tag last no
        generalize (nextNo g.tag last no) = no' at *
        obtain ⟨h1, h2, h3⟩ := ih hs.2 hs.1 (by omega) hr
        have hle : ∀ x ∈ r, g.tag ≤ x.1.tag := by
          intro x hx
          have : x.1 ∈ gl := by
            rw [← numberGrps_fst hr]; exact List.mem_map.mpr ⟨x, hx, rfl⟩
          exact hs.1 _ this
        refine ⟨?_, ?_, ?_⟩
        · intro x hx
          rcases List.mem_cons.mp hx with rfl | hx
          · exact ⟨hno.1, hno.2.1⟩
          · obtain ⟨a, b⟩ := h1 x hx
            have := hle x hx
            refine ⟨by omega, ?_⟩
            constructor
            · intro he
              have hg : g.tag = last := by omega
              have := hno.2.1.1 hg
              have := b.1 (by omega)
              omega
            · intro he
              have : no' = no := by omega
              have := hno.2.1.2 this
              have := b.2 (by omega)
              omega
        · rw [List.pairwise_cons]
          refine ⟨?_, h2⟩
          intro x hx
          obtain ⟨a, b⟩ := h1 x hx
          refine ⟨a, ?_⟩
          constructor
          · intro he; exact (b.1 he.symm).symm
          · intro he; exact (b.2 he.symm).symm
        · intro x hx k hk hk'
          by_cases hkn : k = no'
          · exact ⟨(g, no'), by simp, hkn.symm⟩
          · rcases r with _ | ⟨y, r⟩
            · simp at hx; subst hx; simp at hk'; omega
            · rw [List.getLast?_cons_cons] at hx
              obtain ⟨z, hz, hz'⟩ := h3 x hx k (by omega) hk'
              exact ⟨z, by simp [hz], hz'⟩

/-- Numbers of the sorted list: same number exactly for same tag, all numbers
up to the last one are used. -/
theorem number_spec {gl : List Grp} {ng : List (Grp × Int)}
    (hs : gl.Pairwise (fun a b => a.tag ≤ b.tag)) (h : numberGrps (-1) (-1) gl = some ng) :
    (∀ x ∈ ng, ∀ y ∈ ng, (x.1.tag = y.1.tag ↔ x.2.toNat = y.2.toNat)) ∧
    (∀ x ∈ ng, 0 ≤ x.2 ∧ x.2.toNat < mCount ng) ∧
    (∀ k, k < mCount ng → ∃ y ∈ ng, y.2.toNat = k) := by
  cases gl with
  | nil =>
    simp [numberGrps] at h; subst h
    refine ⟨by simp, by simp, ?_⟩
    intro k hk; simp [mCount] at hk
  | cons g gl =>
    simp only [List.pairwise_cons] at hs
    simp only [numberGrps] at h
    split at h
    · cases h
    · rename_i hneg
      have hno : nextNo g.tag (-1) (-1) = 0 := by
        have := nextNo_spec g.tag (-1) (-1)
        omega
      rw [hno] at h
      rcases hr : numberGrps g.tag 0 gl with _ | r
      · rw [hr] at h; cases h
      · rw [hr] at h
        simp only [Option.map_some, Option.some.injEq] at h
        obtain ⟨h1, h2, h3⟩ := numberGrps_spec hs.2 hs.1 (by omega) hr
        have hpw : ng.Pairwise (fun a b => a.2 ≤ b.2 ∧ (a.1.tag = b.1.tag ↔ a.2 = b.2)) := by
          rw [← h, List.pairwise_cons]
          refine ⟨?_, h2⟩
          intro x hx
          obtain ⟨a, b⟩ := h1 x hx
          exact ⟨a, fun he => (b.1 he.symm).symm, fun he => (b.2 he.symm).symm⟩
        have hge : ∀ x ∈ ng, 0 ≤ x.2 := by
          intro x hx
          rw [← h] at hx
          rcases List.mem_cons.mp hx with rfl | hx
          · exact Int.le_refl _
          · exact (h1 x hx).1
        have hiff : ∀ x ∈ ng, ∀ y ∈ ng, (x.1.tag = y.1.tag ↔ x.2 = y.2) := by
          intro x hx y hy
          obtain ⟨i, hi⟩ := List.mem_iff_getElem?.1 hx
          obtain ⟨j, hj⟩ := List.mem_iff_getElem?.1 hy
          obtain ⟨hi1, hi2⟩ := List.getElem?_eq_some_iff.mp hi
          obtain ⟨hj1, hj2⟩ := List.getElem?_eq_some_iff.mp hj
          rcases Nat.lt_trichotomy i j with hij | hij | hij
          · have := (List.pairwise_iff_getElem.mp hpw i j hi1 hj1 hij).2
            rw [hi2, hj2] at this; exact this
          · subst hij; rw [hi] at hj; injection hj with hj; rw [hj]; exact ⟨fun _ => rfl, fun _ => rfl⟩
          · have := (List.pairwise_iff_getElem.mp hpw j i hj1 hi1 hij).2
            rw [hi2, hj2] at this
            exact ⟨fun e => (this.1 e.symm).symm, fun e => (this.2 e.symm).symm⟩
        refine ⟨?_, ?_, ?_⟩
        · intro x hx y hy
          rw [hiff x hx y hy]
          have := hge x hx; have := hge y hy
          omega
        · intro x hx
          refine ⟨hge x hx, ?_⟩
          have hne : ng ≠ [] := List.ne_nil_of_mem hx
          have hl := List.getLast?_eq_some_getLast hne
          unfold mCount
          rw [hl]
          have hlast : x.2 ≤ (ng.getLast hne).2 := by
            have hsplit := List.dropLast_append_getLast hne
            rw [← hsplit] at hx hpw
            rw [List.pairwise_append] at hpw
            rcases List.mem_append.mp hx with hx | hx
            · exact (hpw.2.2 x hx _ (by simp)).1
            · simp at hx; rw [hx]; exact Int.le_refl _
          have := hge x hx
          dsimp only
          omega
        · intro k hk
          have hne : ng ≠ [] := by intro e; rw [e] at hk; simp [mCount] at hk
          obtain ⟨last, hl⟩ : ∃ last, ng.getLast? = some last := ⟨_, List.getLast?_eq_some_getLast hne⟩
          unfold mCount at hk
          rw [hl] at hk
          dsimp only at hk
          by_cases hk0 : k = 0
          · exact ⟨(g, 0), by rw [← h]; simp, by simp [hk0]⟩
          · rcases r with _ | ⟨y, r⟩
            · rw [← h] at hl; simp at hl; rw [← hl] at hk; simp at hk; omega
            · rw [← h, List.getLast?_cons_cons] at hl
              obtain ⟨z, hz, hz'⟩ := h3 _ hl (k : Int) (by omega) (by omega)
              exact ⟨z, by rw [← h]; simp [hz], by omega⟩

/-! ### Combined ranges -/

/-- Range set from the boxes of `S`. -/
def HullO (d : Dims) (S : List Box) (o : Option Box) : Prop :=
  (S = [] ∧ o = none) ∨ ∃ c, o = some c ∧ Hull d S c

theorem hullO_extend {d : Dims} {S : List Box} {o : Option Box} {b : Box} (h : HullO d S o)
    (hb : ∃ p, Mem d b p) : HullO d (S ++ [b]) (some (extend d o b)) := by
  rcases h with ⟨rfl, rfl⟩ | ⟨c, rfl, hc⟩
  · exact Or.inr ⟨_, rfl, hull_single hb⟩
  · exact Or.inr ⟨_, rfl, hull_extend hc hb⟩

/-- Relation between a numbered group and its mapping. -/
def Linked (d : Dims) (parts : List (List TR)) (x : Grp × Int) (m : PMap) : Prop :=
  m.part = x.1.part ∧ m.mapNo = x.1.mapNo ∧ m.base = x.2.toNat ∧
    ∃ own, parts[x.1.part]? = some own ∧
      coverLoop d x.1.tag none (mapRanges own x.1.mapNo) = some (some m.required)

theorem linkLoop_spec {d : Dims} {parts : List (List TR)} : ∀ {ng : List (Grp × Int)}
    {bs bs' : List (Option Box)} {ms : List PMap} {S : Nat → List Box},
    (∀ r o, bs[r]? = some o → HullO d (S r) o) →
    linkLoop d parts bs ng = some (bs', ms) →
    List.Forall₂ (Linked d parts) ng ms ∧ bs'.length = bs.length ∧
    ∀ r o, bs'[r]? = some o →
      HullO d (S r ++ (ms.filter fun m => m.base = r).map PMap.required) o := by
  intro ng
  induction ng with
  | nil =>
    intro bs bs' ms S hS h
    simp only [linkLoop, Option.some.injEq, Prod.mk.injEq] at h
    obtain ⟨rfl, rfl⟩ := h
    exact ⟨.nil, rfl, by simpa using hS⟩
  | cons x ng ih =>
    obtain ⟨g, no⟩ := x
    intro bs bs' ms S hS h
    simp only [linkLoop] at h
    split at h
    · rename_i own cur hown hcur
      split at h
      · rename_i b hb
        split at h
        · rename_i bs1 ms1 hrec
          simp only [Option.some.injEq, Prod.mk.injEq] at h
          obtain ⟨rfl, rfl⟩ := h
          have hbne := (coverLoop_none_spec hb).1.exists_mem
          obtain ⟨h1, h2, h3⟩ := ih (S := fun r => if r = no.toNat then S r ++ [b] else S r) (by
            intro r o hr
            by_cases hrn : r = no.toNat
            · subst hrn
              rw [List.getElem?_set_self (by
                exact (List.getElem?_eq_some_iff.mp hcur).1)] at hr
              injection hr with hr
              subst hr
              simp only [if_true]
              exact hullO_extend (hS _ _ hcur) hbne
            · rw [List.getElem?_set_ne (by omega)] at hr
              simp only [hrn, if_false]
              exact hS r o hr) hrec
          refine ⟨.cons ⟨rfl, rfl, rfl, own, hown, hb⟩ h1, by simpa using h2, ?_⟩
          intro r o hr
          have := h3 r o hr
          by_cases hrn : r = no.toNat
          · subst hrn
            simpa using this
          · have hrn' : ¬ no.toNat = r := fun e => hrn e.symm
            simpa [hrn, hrn'] using this
        · cases h
      · cases h
    · cases h

theorem baseBoxes_spec {d : Dims} : ∀ {bs : List (Option Box)} {bases : List Box},
    baseBoxes d bs = some bases → bs = bases.map some := by
  intro bs
  induction bs with
  | nil => intro bases h; simp [baseBoxes] at h; subst h; rfl
  | cons o bs ih =>
    intro bases h
    rcases o with _ | b
    · simp [baseBoxes] at h
    · simp only [baseBoxes] at h
      split at h
      · cases h
      · split at h
        · cases h
        · rcases hr : baseBoxes d bs with _ | r
          · rw [hr] at h; cases h
          · rw [hr] at h
            simp only [Option.map_some, Option.some.injEq] at h
            subst h
            simp [ih hr]

end Laik.Res
