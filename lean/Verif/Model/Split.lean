import Verif.Model.Partitioner
import Mathlib.Logic.ExistsUnique
import Mathlib.Tactic.ByContra
/-!
# Model of bisection and grid partitioners (`src/partitioner.c` 369-504)
-/

namespace Laik

/-- Width of a range in dimension `k` (`to - from`; the C value is `uint64_t`,
here only used for `from ≤ to`). -/
def Box.width (b : Box) (k : Nat) : Nat := (b.hi.get k - b.lo.get k).toNat

/-- Selection of the dimension with largest width, src/partitioner.c 383-400. -/
def splitDim (d : Dims) (s : Box) : Nat :=
  if d.toNat > 1 then
    let k := if s.width 1 > s.width 0 then 1 else 0
    if d.toNat > 2 then
      if s.width 2 > s.width k then 2 else k
    else k
  else 0

/-- Split position, src/partitioner.c 408-409 (without overflow). -/
def splitPos (width f t : Nat) : Nat := width * ((f + t) / 2 - f) / (t - f)

/-- `doBisection`, src/partitioner.c 372-415; `none`: failed asserts 377, 401. -/
def bisect (d : Dims) (s : Box) (f t : Nat) : Option (List Call) :=
  if t ≤ f then none
  else if t - f = 1 then some [⟨f, s, 1⟩]
  else
    let k := splitDim d s
    let width := s.width k
    if width = 0 then none
    else if width = 1 then some [⟨f, s, 1⟩]
    else
      let mid := (f + t) / 2
      let v := s.lo.get k + splitPos width f t
      match bisect d { s with hi := s.hi.set k v } f mid, bisect d { s with lo := s.lo.set k v } mid t with
      | some a, some b => some (a ++ b)
      | _, _ => none
termination_by t - f
decreasing_by all_goals omega

/-- Intervals in one dimension of the grid partitioner, src/partitioner.c
457-463 (and 465-471, 473-479): `b k` is the converted value of
`from + k * step`, the same expression being used for the end of block `k-1`
and the start of block `k`. -/
def gridIvs (b : Nat → Int) (n : Nat) (hi : Int) : List (Int × Int) :=
  (List.range n).filterMap (fun k =>
    if b k = b (k + 1) then none
    else some (b k, if b (k + 1) > hi then hi else b (k + 1)))

/-- Boxes of the grid in loop order. -/
def gridBoxes (xs ys zs : List (Int × Int)) : List Box :=
  zs.flatMap (fun z => ys.flatMap (fun y => xs.map (fun x => ⟨⟨x.1, y.1, z.1⟩, ⟨x.2, y.2, z.2⟩⟩)))

/-- `runGridPartitioner`, src/partitioner.c 436-487, for a group of `n`
processes; `none`: failed asserts 443, 445.  The loop returns when all
processes have a range (483). -/
def gridCalls (d : Dims) (sp : Box) (n : Nat) (bx bY bz : Nat → Int) (nx ny nz : Nat) :
    Option (List Call) :=
  if d = .d3 ∧ nx * ny * nz ≤ n then
    some (((gridBoxes (gridIvs bx nx sp.hi.x) (gridIvs bY ny sp.hi.y) (gridIvs bz nz sp.hi.z)).zipIdx.take n).map
      (fun e => ⟨e.2, e.1, 1⟩))
  else none

/-- Division correctly rounded to 53 bits (ties to even): `(m, s)` stands for
`m / 2^s`.  IEEE 754 binary64 for positive values without overflow and
denormalised results, for operands with `num < 2^53 * den`. -/
def flDiv (num den : Nat) : Nat × Nat :=
  let s0 := 53 + den.log2 - num.log2
  let s := if num * 2 ^ s0 / den ≥ 2 ^ 53 then s0 - 1 else s0
  let a := num * 2 ^ s
  let q := a / den
  let r := a % den
  (if 2 * r > den ∨ (2 * r = den ∧ q % 2 = 1) then q + 1 else q, s)

/-- Border `k` of `n` blocks for a dimension from 0 to `len` in binary64
arithmetic, src/partitioner.c 448, 458-459: step `len / (double) n`, then
`0 + k * step`, converted to an integer. -/
def dblBorder (len n k : Nat) : Int :=
  if k = 0 then 0 else
    let step := flDiv len n
    let prod := flDiv (k * step.1) (2 ^ step.2)
    ((prod.1 / 2 ^ prod.2 : Nat) : Int)

/-! ### Exact covers -/

/-- Specification: the ranges of the calls contain each index of `space` and
nothing else, and no index is in two of them. -/
structure ExactCover (d : Dims) (space : Box) (calls : List Call) : Prop where
  cover : ∀ p, Mem d space p ↔ ∃ c ∈ calls, Mem d c.box p
  disjoint : calls.Pairwise (fun a b => ∀ p, ¬ (Mem d a.box p ∧ Mem d b.box p))

theorem ExactCover.unique {d : Dims} {space : Box} {calls : List Call} (h : ExactCover d space calls)
    (p : Idx) (hp : Mem d space p) : ∃! c, c ∈ calls ∧ Mem d c.box p := by
  obtain ⟨c, hc, hm⟩ := (h.cover p).1 hp
  refine ⟨c, ⟨hc, hm⟩, ?_⟩
  rintro c' ⟨hc', hm'⟩
  have key : ∀ (l : List Call), l.Pairwise (fun a b => ∀ p, ¬ (Mem d a.box p ∧ Mem d b.box p)) →
      c ∈ l → c' ∈ l → c' = c := by
    intro l
    induction l with
    | nil => intro _ h; cases h
    | cons a l ih =>
      intro hp h1 h2
      rw [List.pairwise_cons] at hp
      rcases List.mem_cons.1 h1 with rfl | g1 <;> rcases List.mem_cons.1 h2 with rfl | g2
      · rfl
      · exact absurd ⟨hm, hm'⟩ (hp.1 _ g2 p)
      · exact absurd ⟨hm', hm⟩ (hp.1 _ g1 p)
      · exact ih hp.2 g1 g2
  exact key calls h.disjoint hc hc'

theorem ExactCover.single (d : Dims) (s : Box) (t : Nat) (g : Int) : ExactCover d s [⟨t, s, g⟩] :=
  ⟨by intro p; simp, by simp⟩

theorem ExactCover.append {d : Dims} {s s1 s2 : Box} {a b : List Call}
    (hs : ∀ p, Mem d s p ↔ Mem d s1 p ∨ Mem d s2 p) (hd : ∀ p, ¬ (Mem d s1 p ∧ Mem d s2 p))
    (ha : ExactCover d s1 a) (hb : ExactCover d s2 b) : ExactCover d s (a ++ b) := by
  constructor
  · intro p
    rw [hs p, ha.cover p, hb.cover p]
    constructor
    · rintro (⟨c, hc, hm⟩ | ⟨c, hc, hm⟩)
      · exact ⟨c, List.mem_append_left _ hc, hm⟩
      · exact ⟨c, List.mem_append_right _ hc, hm⟩
    · rintro ⟨c, hc, hm⟩
      rcases List.mem_append.1 hc with h | h
      · exact Or.inl ⟨c, h, hm⟩
      · exact Or.inr ⟨c, h, hm⟩
  · rw [List.pairwise_append]
    refine ⟨ha.disjoint, hb.disjoint, ?_⟩
    rintro x hx y hy p ⟨h1, h2⟩
    exact hd p ⟨(ha.cover p).2 ⟨x, hx, h1⟩, (hb.cover p).2 ⟨y, hy, h2⟩⟩

/-! ### Bisection lemmas -/

theorem splitDim_spec (d : Dims) (s : Box) :
    splitDim d s < d.toNat ∧ ∀ j, j < d.toNat → s.width j ≤ s.width (splitDim d s) := by
  cases d
  · refine ⟨by simp [splitDim], fun j hj => ?_⟩
    simp at hj; subst hj; simp [splitDim]
  · refine ⟨by simp [splitDim]; split <;> omega, fun j hj => ?_⟩
    have : j = 0 ∨ j = 1 := by simp at hj; omega
    simp only [splitDim, toNat_d2]
    rcases this with rfl | rfl <;> simp <;> split <;> omega
  · constructor
    · simp only [splitDim, toNat_d3]; simp; repeat' split
      all_goals omega
    · intro j hj
      have : j = 0 ∨ j = 1 ∨ j = 2 := by simp at hj; omega
      simp only [splitDim, toNat_d3]
      rcases this with rfl | rfl | rfl <;> simp <;> repeat' split
      all_goals omega

theorem splitPos_le (width f t : Nat) (h : f < t) : splitPos width f t ≤ width := by
  unfold splitPos
  apply Nat.div_le_of_le_mul
  rw [Nat.mul_comm]
  exact Nat.mul_le_mul_right _ (by omega)

/-- Valid corner order in all dimensions. -/
def Box.Valid (d : Dims) (b : Box) : Prop := ∀ k, k < d.toNat → b.lo.get k ≤ b.hi.get k

theorem width_eq {d : Dims} {s : Box} (hv : s.Valid d) {k : Nat} (hk : k < d.toNat) :
    (s.width k : Int) = s.hi.get k - s.lo.get k := by
  have := hv k hk
  unfold Box.width; omega

theorem split_valid {d : Dims} {s : Box} (hv : s.Valid d) {k : Nat} (hk : k < d.toNat) {w : Nat}
    (hw : w ≤ s.width k) :
    Box.Valid d { s with hi := s.hi.set k (s.lo.get k + w) } ∧
    Box.Valid d { s with lo := s.lo.set k (s.lo.get k + w) } := by
  have h3 := d.toNat_le
  have hwk := width_eq hv hk
  constructor <;>
  · intro j hj
    have := hv j hj
    simp only
    rw [Idx.get_set _ _ _ _ (by omega) (by omega)]
    split
    · subst j; omega
    · exact this

theorem split_width {d : Dims} {s : Box} (hv : s.Valid d) {k : Nat} (hk : k < d.toNat) {w : Nat}
    (hw : w ≤ s.width k) (j : Nat) (hj : j < d.toNat) :
    Box.width { s with hi := s.hi.set k (s.lo.get k + w) } j = (if j = k then w else s.width j) ∧
    Box.width { s with lo := s.lo.set k (s.lo.get k + w) } j = (if j = k then s.width k - w else s.width j) := by
  have h3 := d.toNat_le
  have hwk := width_eq hv hk
  unfold Box.width at *
  simp only
  rw [Idx.get_set _ _ _ _ (by omega) (by omega), Idx.get_set _ _ _ _ (by omega) (by omega)]
  by_cases e : j = k
  · subst e; simp only [if_true]; omega
  · simp only [if_neg e]; exact ⟨trivial, trivial⟩

theorem split_mem {d : Dims} {s : Box} (hv : s.Valid d) {k : Nat} (hk : k < d.toNat) {w : Nat}
    (hw : w ≤ s.width k) (p : Idx) :
    (Mem d s p ↔ Mem d { s with hi := s.hi.set k (s.lo.get k + w) } p ∨
      Mem d { s with lo := s.lo.set k (s.lo.get k + w) } p) ∧
    ¬ (Mem d { s with hi := s.hi.set k (s.lo.get k + w) } p ∧
      Mem d { s with lo := s.lo.set k (s.lo.get k + w) } p) := by
  have hwk := width_eq hv hk
  rw [mem_setHi d s k hk, mem_setLo d s k hk]
  constructor
  · constructor
    · intro h
      have hpk := h k hk
      rcases Int.lt_or_le (p.get k) (s.lo.get k + w) with g | g
      · exact Or.inl ⟨fun j hj _ => h j hj, hpk.1, g⟩
      · exact Or.inr ⟨fun j hj _ => h j hj, g, hpk.2⟩
    · rintro (⟨h1, h2⟩ | ⟨h1, h2⟩) j hj <;>
      · by_cases e : j = k
        · subst e; omega
        · exact h1 j hj e
  · rintro ⟨⟨_, h1⟩, _, h2⟩; omega

theorem bisect_cover (d : Dims) (s : Box) (f t : Nat) (hv : s.Valid d) (cs : List Call)
    (h : bisect d s f t = some cs) :
    ExactCover d s cs ∧ (∀ c ∈ cs, f ≤ c.task ∧ c.task < t ∧ c.tag = 1 ∧
      ∀ k, k < d.toNat → s.lo.get k ≤ c.box.lo.get k ∧ c.box.hi.get k ≤ s.hi.get k) ∧
    cs.Pairwise (fun a b => a.task < b.task) := by
  induction hn : t - f using Nat.strongRecOn generalizing s f t cs with
  | ind n ih =>
    have hself : ∀ k, k < d.toNat → s.lo.get k ≤ s.lo.get k ∧ s.hi.get k ≤ s.hi.get k :=
      fun k _ => ⟨Int.le_refl _, Int.le_refl _⟩
    rw [bisect] at h
    by_cases c1 : t ≤ f
    · rw [if_pos c1] at h; cases h
    rw [if_neg c1] at h
    by_cases c2 : t - f = 1
    · rw [if_pos c2] at h; cases h
      exact ⟨ExactCover.single d s f 1, by
        intro c hc; rw [List.mem_singleton] at hc; subst hc
        exact ⟨Nat.le_refl _, by simp only; omega, rfl, hself⟩, by simp⟩
    rw [if_neg c2] at h
    simp only at h
    obtain ⟨hk, _⟩ := splitDim_spec d s
    generalize splitDim d s = k at h hk
    by_cases c3 : s.width k = 0
    · rw [if_pos c3] at h; cases h
    rw [if_neg c3] at h
    by_cases c4 : s.width k = 1
    · rw [if_pos c4] at h; cases h
      exact ⟨ExactCover.single d s f 1, by
        intro c hc; rw [List.mem_singleton] at hc; subst hc
        exact ⟨Nat.le_refl _, by simp only; omega, rfl, hself⟩, by simp⟩
    rw [if_neg c4] at h
    have hw := splitPos_le (s.width k) f t (by omega)
    generalize splitPos (s.width k) f t = w at h hw
    split at h
    · rename_i a b ha hb
      cases h
      have hv2 := split_valid hv hk hw
      have hwk := width_eq hv hk
      have h3 := d.toNat_le
      obtain ⟨ca, ta, pa⟩ := ih ((f + t) / 2 - f) (by omega) _ f ((f+t)/2) hv2.1 a ha rfl
      obtain ⟨cb, tb, pb⟩ := ih (t - (f + t) / 2) (by omega) _ ((f+t)/2) t hv2.2 b hb rfl
      refine ⟨ExactCover.append (fun p => (split_mem hv hk hw p).1) (fun p => (split_mem hv hk hw p).2) ca cb,
        ?_, ?_⟩
      · intro c hc
        rcases List.mem_append.1 hc with hc | hc
        · obtain ⟨h1, h2, h4, h5⟩ := ta c hc
          refine ⟨by omega, by omega, h4, fun j hj => ?_⟩
          have := h5 j hj
          simp only at this
          rw [Idx.get_set _ _ _ _ (by omega) (by omega)] at this
          split at this
          · subst j; omega
          · exact this
        · obtain ⟨h1, h2, h4, h5⟩ := tb c hc
          refine ⟨by omega, by omega, h4, fun j hj => ?_⟩
          have := h5 j hj
          simp only at this
          rw [Idx.get_set _ _ _ _ (by omega) (by omega)] at this
          split at this
          · subst j; omega
          · exact this
      · rw [List.pairwise_append]
        refine ⟨pa, pb, fun x hx y hy => ?_⟩
        have := (ta x hx).2.1; have := (tb y hy).1; omega
    · cases h

theorem splitPos_ge (width f t : Nat) (h : f < t) (hw : t - f ≤ width) :
    (f + t) / 2 - f ≤ splitPos width f t ∧ t - (f + t) / 2 ≤ width - splitPos width f t := by
  unfold splitPos
  have hpos : 0 < t - f := by omega
  generalize hm : (f + t) / 2 - f = m
  have hm2 : t - (f + t) / 2 = (t - f) - m := by omega
  have hmle : m ≤ t - f := by omega
  rw [hm2]
  generalize t - f = n at *
  constructor
  · rw [Nat.le_div_iff_mul_le hpos, Nat.mul_comm]
    exact Nat.mul_le_mul_right _ hw
  · -- width - floor(width*m/n) ≥ n - m
    have hq : width * m / n * n ≤ width * m := Nat.div_mul_le_self _ _
    have hle : width * m / n ≤ width := by
      apply Nat.div_le_of_le_mul; rw [Nat.mul_comm]; exact Nat.mul_le_mul_right _ hmle
    generalize width * m / n = q at *
    by_contra hcon
    have h1 : width - q + 1 ≤ n - m := by omega
    have h2 : (width - q + 1) * n ≤ (n - m) * n := Nat.mul_le_mul_right _ h1
    have h3 : (width - q) * n = width * n - q * n := Nat.sub_mul _ _ _
    have h4 : (n - m) * width ≥ (n - m) * n := Nat.mul_le_mul_left _ hw
    have h5 : (n - m) * width = n * width - m * width := Nat.sub_mul _ _ _
    have h6 : (width - q + 1) * n = (width - q) * n + n := by rw [Nat.add_mul, Nat.one_mul]
    have e1 : n * width = width * n := Nat.mul_comm _ _
    have e2 : m * width = width * m := Nat.mul_comm _ _
    have h7 : q * n ≤ width * n := Nat.mul_le_mul_right _ hle
    have h8 : width * m ≤ width * n := Nat.mul_le_mul_left _ hmle
    omega

/-- Enough width: no abort, no empty range. -/
theorem bisect_total (d : Dims) (s : Box) (f t : Nat) (hv : s.Valid d) (hft : f < t)
    (hne : ∀ j, j < d.toNat → 0 < s.width j) (hw : ∃ j, j < d.toNat ∧ t - f ≤ s.width j) :
    ∃ cs, bisect d s f t = some cs ∧ cs.length = t - f ∧
      ∀ c ∈ cs, ∀ j, j < d.toNat → 0 < c.box.width j := by
  induction hn : t - f using Nat.strongRecOn generalizing s f t with
  | ind n ih =>
    rw [bisect, if_neg (by omega)]
    by_cases c2 : t - f = 1
    · rw [if_pos c2]; exact ⟨_, rfl, by simp; omega, by simpa using hne⟩
    rw [if_neg c2]
    simp only
    obtain ⟨hk, hmax⟩ := splitDim_spec d s
    generalize splitDim d s = k at hk hmax
    have hwk : t - f ≤ s.width k := by
      obtain ⟨j, hj, h⟩ := hw
      have := hmax j hj; omega
    rw [if_neg (by omega), if_neg (by omega)]
    have hle := splitPos_le (s.width k) f t hft
    obtain ⟨g1, g2⟩ := splitPos_ge (s.width k) f t hft hwk
    generalize splitPos (s.width k) f t = w at *
    have hv2 := split_valid hv hk hle
    have sw := fun j hj => split_width hv hk hle j hj
    obtain ⟨a, ea, la, na⟩ := ih ((f + t) / 2 - f) (by omega) { s with hi := s.hi.set k (s.lo.get k + w) }
      f ((f+t)/2) hv2.1 (by omega)
      (fun j hj => by rw [(sw j hj).1]; split; omega; exact hne j hj)
      ⟨k, hk, by rw [(sw k hk).1, if_pos rfl]; exact g1⟩ rfl
    obtain ⟨b, eb, lb, nb⟩ := ih (t - (f + t) / 2) (by omega) { s with lo := s.lo.set k (s.lo.get k + w) }
      ((f+t)/2) t hv2.2 (by omega)
      (fun j hj => by rw [(sw j hj).2]; split; omega; exact hne j hj)
      ⟨k, hk, by rw [(sw k hk).2, if_pos rfl]; exact g2⟩ rfl
    rw [ea, eb]
    refine ⟨_, rfl, by rw [List.length_append]; omega, ?_⟩
    intro c hc
    rcases List.mem_append.1 hc with hc | hc
    · exact na c hc
    · exact nb c hc

/-- Power of two number of tasks: no abort, no empty range. -/
theorem bisect_total_pow2 (d : Dims) (s : Box) (f m : Nat) (hv : s.Valid d)
    (hne : ∀ j, j < d.toNat → 0 < s.width j) :
    ∃ cs, bisect d s f (f + 2 ^ m) = some cs ∧
      ∀ c ∈ cs, ∀ j, j < d.toNat → 0 < c.box.width j := by
  induction m generalizing s f with
  | zero =>
    rw [bisect, if_neg (by simp), if_pos (by simp)]
    exact ⟨_, rfl, by simpa using hne⟩
  | succ m ih =>
    have hpow : 2 ^ (m + 1) = 2 ^ m + 2 ^ m := by rw [Nat.pow_succ]; omega
    have hp : 0 < 2 ^ m := Nat.pos_of_ne_zero (by simp)
    have hmid : (f + (f + 2 ^ (m + 1))) / 2 = f + 2 ^ m := by omega
    rw [bisect, if_neg (by omega), if_neg (by omega)]
    simp only [hmid]
    obtain ⟨hk, hmax⟩ := splitDim_spec d s
    generalize splitDim d s = k at hk hmax
    have hwp := hne k hk
    rw [if_neg (by omega)]
    by_cases c4 : s.width k = 1
    · rw [if_pos c4]; exact ⟨_, rfl, by simpa using hne⟩
    rw [if_neg c4]
    have hsp : splitPos (s.width k) f (f + 2 ^ (m+1)) = s.width k / 2 := by
      unfold splitPos
      rw [hmid, show f + 2 ^ m - f = 2 ^ m by omega, show f + 2 ^ (m+1) - f = 2 ^ m * 2 by omega,
        Nat.mul_comm, Nat.mul_div_mul_left _ _ hp]
    rw [hsp]
    have hle : s.width k / 2 ≤ s.width k := by omega
    have hv2 := split_valid hv hk hle
    have sw := fun j hj => split_width hv hk hle j hj
    obtain ⟨a, ea, na⟩ := ih { s with hi := s.hi.set k (s.lo.get k + ((s.width k / 2 : Nat) : Int)) } f hv2.1
      (fun j hj => by rw [(sw j hj).1]; split; omega; exact hne j hj)
    obtain ⟨b, eb, nb⟩ := ih { s with lo := s.lo.set k (s.lo.get k + ((s.width k / 2 : Nat) : Int)) } (f + 2 ^ m) hv2.2
      (fun j hj => by rw [(sw j hj).2]; split; omega; exact hne j hj)
    rw [show f + 2 ^ m + 2 ^ m = f + 2 ^ (m+1) by omega] at eb
    rw [ea, eb]
    refine ⟨_, rfl, ?_⟩
    intro c hc
    rcases List.mem_append.1 hc with hc | hc
    · exact na c hc
    · exact nb c hc

/-! ### Grid lemmas -/

/-- What is needed of the (rounded) borders of one dimension. -/
structure GoodBorders (b : Nat → Int) (n : Nat) (lo hi : Int) : Prop where
  mono : ∀ k, k < n → b k ≤ b (k + 1)
  first : b 0 = lo
  last : hi ≤ b n
  inner : ∀ k, k < n → b k ≤ hi

theorem GoodBorders.le {b : Nat → Int} {n : Nat} {lo hi : Int} (h : GoodBorders b n lo hi)
    {i j : Nat} (hij : i ≤ j) (hj : j ≤ n) : b i ≤ b j := by
  induction j with
  | zero => have : i = 0 := by omega
            subst this; exact Int.le_refl _
  | succ j ih =>
    by_cases e : i = j + 1
    · rw [e]; exact Int.le_refl _
    · have := ih (by omega) (by omega)
      have := h.mono j (by omega); omega

theorem gridIvs_mem (b : Nat → Int) (n : Nat) (hi : Int) (iv : Int × Int) :
    iv ∈ gridIvs b n hi ↔ ∃ k, k < n ∧ b k ≠ b (k+1) ∧ iv.1 = b k ∧ iv.2 = min (b (k+1)) hi := by
  unfold gridIvs
  rw [List.mem_filterMap]
  constructor
  · rintro ⟨k, hk, h⟩
    split at h
    · cases h
    · rename_i hne
      cases h
      exact ⟨k, List.mem_range.1 hk, hne, rfl, by simp only; split <;> omega⟩
  · rintro ⟨k, hk, hne, h1, h2⟩
    refine ⟨k, List.mem_range.2 hk, ?_⟩
    rw [if_neg hne]
    congr 1
    apply Prod.ext
    · exact h1.symm
    · simp only; rw [h2]; split <;> omega

theorem gridIvs_cover {b : Nat → Int} {n : Nat} {lo hi : Int} (h : GoodBorders b n lo hi) (v : Int) :
    (lo ≤ v ∧ v < hi) ↔ ∃ iv ∈ gridIvs b n hi, iv.1 ≤ v ∧ v < iv.2 := by
  constructor
  · rintro ⟨h1, h2⟩
    -- last border not above v
    have key : ∀ m, m ≤ n → v < b m → ∃ k, k < m ∧ b k ≤ v ∧ v < b (k+1) := by
      intro m
      induction m with
      | zero => intro _ hb; rw [h.first] at hb; omega
      | succ m ih =>
        intro hm hb
        rcases Int.lt_or_le v (b m) with g | g
        · obtain ⟨k, hk, h'⟩ := ih (by omega) g
          exact ⟨k, by omega, h'⟩
        · exact ⟨m, by omega, g, hb⟩
    obtain ⟨k, hk, h3, h4⟩ := key n (Nat.le_refl _) (by have := h.last; omega)
    refine ⟨(b k, min (b (k+1)) hi), ?_, h3, by simp only; omega⟩
    rw [gridIvs_mem]
    exact ⟨k, hk, by omega, rfl, rfl⟩
  · rintro ⟨iv, hiv, h1, h2⟩
    obtain ⟨k, hk, _, e1, e2⟩ := (gridIvs_mem b n hi iv).1 hiv
    have := h.le (Nat.zero_le k) (by omega)
    rw [h.first] at this
    omega

theorem gridIvs_pairwise {b : Nat → Int} {n : Nat} {lo hi : Int} (h : GoodBorders b n lo hi) :
    (gridIvs b n hi).Pairwise (fun x y => x.2 ≤ y.1) := by
  unfold gridIvs
  rw [List.pairwise_filterMap]
  have hr : (List.range n).Pairwise (fun i j => i < j ∧ j < n) := by
    rw [List.pairwise_iff_getElem]
    intro i j hi hj hij
    simp at hj ⊢; omega
  refine hr.imp ?_
  rintro i j ⟨hij, hj⟩ x hx y hy
  split at hx
  · cases hx
  · split at hy
    · cases hy
    · cases hx; cases hy
      have := h.le (show i + 1 ≤ j by omega) (by omega)
      simp only; split <;> omega

theorem gridBoxes_mem (xs ys zs : List (Int × Int)) (c : Box) :
    c ∈ gridBoxes xs ys zs ↔ (c.lo.x, c.hi.x) ∈ xs ∧ (c.lo.y, c.hi.y) ∈ ys ∧ (c.lo.z, c.hi.z) ∈ zs := by
  simp only [gridBoxes, List.mem_flatMap, List.mem_map]
  constructor
  · rintro ⟨z, hz, y, hy, x, hx, rfl⟩; exact ⟨hx, hy, hz⟩
  · rintro ⟨hx, hy, hz⟩; exact ⟨_, hz, _, hy, _, hx, rfl⟩

theorem gridBoxes_pairwise {xs ys zs : List (Int × Int)}
    (hx : xs.Pairwise (fun a b => a.2 ≤ b.1)) (hy : ys.Pairwise (fun a b => a.2 ≤ b.1))
    (hz : zs.Pairwise (fun a b => a.2 ≤ b.1)) :
    (gridBoxes xs ys zs).Pairwise (fun a b => ∀ p, ¬ (Mem .d3 a p ∧ Mem .d3 b p)) := by
  unfold gridBoxes
  rw [List.pairwise_flatMap]
  constructor
  · intro z _
    rw [List.pairwise_flatMap]
    constructor
    · intro y _
      rw [List.pairwise_map]
      refine hx.imp ?_
      rintro a b hab p ⟨h1, h2⟩
      have := h1 0 (by decide); have := h2 0 (by decide)
      simp only [Idx.get] at *; omega
    · refine hy.imp ?_
      rintro a b hab u hu v hv p ⟨h1, h2⟩
      obtain ⟨_, _, rfl⟩ := List.mem_map.1 hu
      obtain ⟨_, _, rfl⟩ := List.mem_map.1 hv
      have := h1 1 (by decide); have := h2 1 (by decide)
      simp only [Idx.get] at *; omega
  · refine hz.imp ?_
    rintro a b hab u hu v hv p ⟨h1, h2⟩
    obtain ⟨_, _, hu⟩ := List.mem_flatMap.1 hu
    obtain ⟨_, _, hv⟩ := List.mem_flatMap.1 hv
    obtain ⟨_, _, rfl⟩ := List.mem_map.1 hu
    obtain ⟨_, _, rfl⟩ := List.mem_map.1 hv
    have := h1 2 (by decide); have := h2 2 (by decide)
    simp only [Idx.get] at *; omega

theorem gridIvs_length (b : Nat → Int) (n : Nat) (hi : Int) : (gridIvs b n hi).length ≤ n := by
  unfold gridIvs
  have := List.length_filterMap_le (fun k => if b k = b (k + 1) then none
    else some (b k, if b (k + 1) > hi then hi else b (k + 1))) (List.range n)
  simpa using this

theorem gridBoxes_length (xs ys zs : List (Int × Int)) :
    (gridBoxes xs ys zs).length = xs.length * ys.length * zs.length := by
  unfold gridBoxes
  simp only [List.length_flatMap, List.length_map, List.map_const', List.sum_replicate_nat]
  rw [Nat.mul_comm ys.length, Nat.mul_comm zs.length]

end Laik
