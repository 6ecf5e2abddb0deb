import Verif.Model.RangeListLemmas
import Verif.Model.Covers
/-!
# Model of filters and simple partitioners (`src/partitioner.c` 57-366,
`src/partitioning.c` 38-186)
-/

namespace Laik

/-- One call of `laik_append_range` by a partitioner. -/
structure Call where
  task : Nat
  box : Box
  tag : Int
  deriving DecidableEq, Repr

/-! ### Filters -/

/-- Binary search of `idxfilter_check`, src/partitioning.c 102-139, with the
remaining number of allowed iterations; `none`: access outside of the own
ranges, or no end of the loop within the given number of iterations. -/
def idxSearch (ts : List (Int × Int)) (frm tto : Int) : Nat → Nat → Nat → Option Bool
  | 0, _, _ => none
  | fuel+1, off1, off2 =>
    if off1 < off2 then
      let mid := (off1 + off2) / 2
      match ts[mid]? with
      | none => none
      | some m =>
        if frm ≥ m.2 then
          match ts[mid+1]? with
          | none => none
          | some n => if tto ≤ n.1 then some false else idxSearch ts frm tto fuel mid off2
        else if tto ≤ m.1 then
          if mid = 0 then none
          else match ts[mid-1]? with
            | none => none
            | some n => if frm ≥ n.2 then some false else idxSearch ts frm tto fuel off1 mid
        else some true
    else some true

/-- `idxfilter_check`, src/partitioning.c 89-140, for the own ranges `ts`
(dimension 0): `par->from`/`par->to` are the start of the first and the end of
the last range (173-174). -/
def idxCheck (ts : List (Int × Int)) (frm tto : Int) : Option Bool :=
  match ts.head?, ts.getLast? with
  | some a, some b =>
    if frm ≥ b.2 ∨ tto ≤ a.1 then some false
    else idxSearch ts frm tto (ts.length + 1) 0 ts.length
  | _, _ => none

/-- `Laik_RangeFilter`: task filter (`filter_tid`, -1 is `none`), or index
filter with up to two lists of own ranges (src/partitioning.c 157-186: a list
without own ranges adds nothing; without any list no filter function is set). -/
inductive Filter
  | tid (t : Option Nat)
  | idx (p1 p2 : Option (List (Int × Int)))
  deriving Repr

/-- `laik_rangefilter_add_idxfilter` on a filter object without filter function
for the own ranges of one or two partitionings, src/partitioning.c 157-186. -/
def mkIdxFilter (own1 own2 : List (Int × Int)) : Filter :=
  match own1, own2 with
  | [], [] => .idx none none
  | [], b => .idx (some b) none
  | a, [] => .idx (some a) none
  | a, b => .idx (some a) (some b)

/-- One of the two checks in `idxfilter`, src/partitioning.c 151-152. -/
def parCheck (p : Option (List (Int × Int))) (c : Call) : Option Bool :=
  match p with
  | none => some false
  | some ts => idxCheck ts c.box.lo.x c.box.hi.x

/-- `tidfilter` 69-75 and `idxfilter` 144-154 of src/partitioning.c; `none`:
failed assert 73, call of a null function pointer (no list added), or undefined
behaviour in the search. -/
def Filter.keep (f : Filter) (c : Call) : Option Bool :=
  match f with
  | .tid none => none
  | .tid (some t) => some (decide (t = c.task))
  | .idx p1 p2 =>
    if p1.isNone && p2.isNone then none
    else match parCheck p1 c with
      | none => none
      | some true => some true
      | some false => parCheck p2 c

/-- `laik_append_range`, src/partitioner.c 110-125. -/
def appendRange (d : Dims) (space : Box) (n : Nat) (f : Option Filter) (l : List TR) (c : Call) :
    Option (List TR) :=
  match (match f with | none => some true | some f => f.keep c) with
  | none => none
  | some false => some l
  | some true => rlAppend d space n l c.task c.box c.tag

/-- All appends done by a partitioner run, in order. -/
def runAppends (d : Dims) (space : Box) (n : Nat) (f : Option Filter) (calls : List Call) :
    Option (List TR) :=
  calls.foldlM (appendRange d space n f) []

/-- The stored entry for a call. -/
def Call.tr (c : Call) : TR := ⟨c.task, c.tag, c.box, 0⟩

/-! ### All, Master, Copy -/

/-- `runAllPartitioner`, src/partitioner.c 153-161. -/
def allCalls (space : Box) (n : Nat) : List Call :=
  (List.range n).map (fun t => ⟨t, space, 0⟩)

/-- `runMasterPartitioner`, src/partitioner.c 170-174. -/
def masterCalls (space : Box) : List Call := [⟨0, space, 0⟩]

/-- `runCopyPartitioner`, src/partitioner.c 192-215, for the ranges `other` of
the other partitioning; `none`: failed asserts 202, 203. -/
def copyCalls (d : Dims) (space : Box) (dOther : Dims) (fromDim toDim : Nat) (other : List TR) :
    Option (List Call) :=
  if fromDim < dOther.toNat ∧ toDim < d.toNat then
    some (other.map (fun t =>
      ⟨t.task, ⟨space.lo.set toDim (t.box.lo.get fromDim), space.hi.set toDim (t.box.hi.get fromDim)⟩,
        t.tag⟩))
  else none

/-! ### Halo partitioners -/

/-- New lower border in one dimension, src/partitioner.c 253-254. -/
def haloLo (sp frm depth : Int) : Int := if frm > sp + depth then frm - depth else sp

/-- New upper border in one dimension, src/partitioner.c 255-256. -/
def haloHi (sp tto depth : Int) : Int := if tto < sp - depth then tto + depth else sp

/-- Extended range of `runCornerHaloPartitioner`, src/partitioner.c 251-270. -/
def cornerBox (d : Dims) (sp b : Box) (depth : Int) : Box :=
  if d.toNat > 1 then
    if d.toNat > 2 then
      ⟨⟨haloLo sp.lo.x b.lo.x depth, haloLo sp.lo.y b.lo.y depth, haloLo sp.lo.z b.lo.z depth⟩,
       ⟨haloHi sp.hi.x b.hi.x depth, haloHi sp.hi.y b.hi.y depth, haloHi sp.hi.z b.hi.z depth⟩⟩
    else
      ⟨⟨haloLo sp.lo.x b.lo.x depth, haloLo sp.lo.y b.lo.y depth, sp.lo.z⟩,
       ⟨haloHi sp.hi.x b.hi.x depth, haloHi sp.hi.y b.hi.y depth, sp.hi.z⟩⟩
  else
    ⟨⟨haloLo sp.lo.x b.lo.x depth, sp.lo.y, sp.lo.z⟩,
     ⟨haloHi sp.hi.x b.hi.x depth, sp.hi.y, sp.hi.z⟩⟩

/-- `runCornerHaloPartitioner`, src/partitioner.c 235-274. -/
def cornerHaloCalls (d : Dims) (sp : Box) (depth : Int) (other : List TR) : List Call :=
  other.map (fun t => ⟨t.task, cornerBox d sp t.box depth, t.tag⟩)

/-- The two halo ranges in dimension `k`, src/partitioner.c 315-325 (and
328-339, 342-353 for the other dimensions). -/
def haloDim (sp b : Box) (depth : Int) (k : Nat) : List Box :=
  (if b.lo.get k > sp.lo.get k + depth then
    [⟨b.lo.set k (b.lo.get k - depth), b.hi.set k (b.lo.get k)⟩] else []) ++
  (if b.hi.get k < sp.hi.get k - depth then
    [⟨b.lo.set k (b.hi.get k), b.hi.set k (b.hi.get k + depth)⟩] else [])

/-- `runHaloPartitioner`, src/partitioner.c 293-357, for one base range;
`none`: failed assert 310. -/
def haloOne (d : Dims) (sp : Box) (depth : Int) (t : TR) : Option (List Call) :=
  if t.tag > 0 then
    some ((t.box :: (List.range d.toNat).flatMap (haloDim sp t.box depth)).map
      (fun b => ⟨t.task, b, t.tag⟩))
  else none

def haloCalls (d : Dims) (sp : Box) (depth : Int) (other : List TR) : Option (List Call) :=
  (other.mapM (haloOne d sp depth)).map List.flatten

/-! ### Lemmas -/

theorem runAppends_none_aux (d : Dims) (space : Box) (n : Nat) (calls : List Call) (l : List TR)
    (h : ∀ c ∈ calls, c.task < n ∧ c.box.within d space = true) :
    calls.foldlM (appendRange d space n none) l = some (l ++ calls.map Call.tr) := by
  induction calls generalizing l with
  | nil => simp
  | cons c cs ih =>
    obtain ⟨h1, h2⟩ := h c (by simp)
    rw [List.foldlM_cons]
    have : appendRange d space n none l c = some (l ++ [c.tr]) := by
      simp [appendRange, rlAppend, h1, h2, Call.tr]
    rw [this]
    simp only [Option.bind_eq_bind, Option.bind_some]
    rw [ih _ (fun c hc => h c (by simp [hc]))]
    simp

theorem runAppends_none (d : Dims) (space : Box) (n : Nat) (calls : List Call)
    (h : ∀ c ∈ calls, c.task < n ∧ c.box.within d space = true) :
    runAppends d space n none calls = some (calls.map Call.tr) := by
  unfold runAppends; rw [runAppends_none_aux d space n calls [] h]; simp

theorem runAppends_none_iff (d : Dims) (space : Box) (n : Nat) (calls : List Call) :
    (∃ l, runAppends d space n none calls = some l) ↔
      ∀ c ∈ calls, c.task < n ∧ c.box.within d space = true := by
  constructor
  · unfold runAppends
    suffices ∀ l0, (∃ l, calls.foldlM (appendRange d space n none) l0 = some l) →
        ∀ c ∈ calls, c.task < n ∧ c.box.within d space = true from this []
    induction calls with
    | nil => intro _ _; simp
    | cons c cs ih =>
      rintro l0 ⟨l, h⟩
      rw [List.foldlM_cons] at h
      by_cases hc : c.task < n ∧ c.box.within d space = true
      · have : appendRange d space n none l0 c = some (l0 ++ [c.tr]) := by
          simp [appendRange, rlAppend, hc.1, hc.2, Call.tr]
        rw [this] at h
        intro c' hc'
        rcases List.mem_cons.1 hc' with rfl | hm
        · exact hc
        · exact ih _ ⟨l, h⟩ c' hm
      · have : appendRange d space n none l0 c = none := by
          simp [appendRange, rlAppend, hc]
        rw [this] at h
        cases h
  · intro h; exact ⟨_, runAppends_none d space n calls h⟩

theorem runAppends_filter (d : Dims) (space : Box) (n : Nat) (f : Filter) (k : Call → Bool)
    (calls : List Call) (h : ∀ c ∈ calls, c.task < n ∧ c.box.within d space = true)
    (hk : ∀ c ∈ calls, f.keep c = some (k c)) :
    runAppends d space n (some f) calls = some ((calls.filter k).map Call.tr) := by
  unfold runAppends
  suffices ∀ l, calls.foldlM (appendRange d space n (some f)) l =
      some (l ++ (calls.filter k).map Call.tr) by rw [this]; simp
  induction calls with
  | nil => simp
  | cons c cs ih =>
    intro l
    obtain ⟨h1, h2⟩ := h c (by simp)
    have hk' := hk c (by simp)
    rw [List.foldlM_cons]
    cases hb : k c with
    | false =>
      have : appendRange d space n (some f) l c = some l := by simp [appendRange, hk', hb]
      rw [this]
      simp only [Option.bind_eq_bind, Option.bind_some]
      rw [ih (fun c hc => h c (by simp [hc])) (fun c hc => hk c (by simp [hc]))]
      simp [hb]
    | true =>
      have : appendRange d space n (some f) l c = some (l ++ [c.tr]) := by
        simp [appendRange, rlAppend, hk', hb, h1, h2, Call.tr]
      rw [this]
      simp only [Option.bind_eq_bind, Option.bind_some]
      rw [ih (fun c hc => h c (by simp [hc])) (fun c hc => hk c (by simp [hc]))]
      simp [hb]

/-- Sorted, non-empty, disjoint ranges. -/
def SortedDisjoint (ts : List (Int × Int)) : Prop :=
  ts.Pairwise (fun a b => a.2 ≤ b.1) ∧ ∀ a ∈ ts, a.1 < a.2

theorem SortedDisjoint.lt {ts : List (Int × Int)} (h : SortedDisjoint ts) {i j : Nat}
    {a b : Int × Int} (ha : ts[i]? = some a) (hb : ts[j]? = some b) (hij : i < j) : a.2 ≤ b.1 := by
  obtain ⟨hi, ea⟩ := List.getElem?_eq_some_iff.1 ha
  obtain ⟨hj, eb⟩ := List.getElem?_eq_some_iff.1 hb
  have := List.pairwise_iff_getElem.1 h.1 i j hi hj hij
  rw [ea, eb] at this; exact this

theorem SortedDisjoint.ne {ts : List (Int × Int)} (h : SortedDisjoint ts) {i : Nat}
    {a : Int × Int} (ha : ts[i]? = some a) : a.1 < a.2 := h.2 a (List.mem_of_getElem? ha)

/-- The search is exact and ends. -/
theorem idxSearch_spec (ts : List (Int × Int)) (h : SortedDisjoint ts) (frm tto : Int)
    (hq : frm < tto) (fuel off1 off2 : Nat) (hf : off2 - off1 < fuel) (hlen : off2 ≤ ts.length)
    (hlt : off1 < off2)
    -- everything left of off1 ends before, everything from off2 on starts after,
    -- with one overlap allowed in the neighbourhood
    (h1 : ∀ i r, i < off1 → ts[i]? = some r → r.2 ≤ frm)
    (h2 : ∀ i r, off2 ≤ i → ts[i]? = some r → tto ≤ r.1)
    (h3 : ∀ r, ts[off2 - 1]? = some r → frm < r.2)
    (h4 : ∀ r, ts[off1]? = some r → r.1 < tto ∨ off1 = 0) (h5 : ∀ r, ts[0]? = some r → r.1 < tto) :
    idxSearch ts frm tto fuel off1 off2 = some (decide (∃ r ∈ ts, r.1 < tto ∧ frm < r.2)) := by
  induction fuel generalizing off1 off2 with
  | zero => omega
  | succ fuel ih =>
    have hm1 : off1 ≤ (off1 + off2) / 2 := by omega
    have hm2 : (off1 + off2) / 2 < off2 := by omega
    have hml : (off1 + off2) / 2 < ts.length := by omega
    generalize hmid : (off1 + off2) / 2 = mid at hm1 hm2 hml
    obtain ⟨m, hm⟩ : ∃ m, ts[mid]? = some m := ⟨_, List.getElem?_eq_getElem hml⟩
    have hmne := h.ne hm
    simp only [idxSearch, hlt, if_true, hmid, hm]
    by_cases c1 : frm ≥ m.2
    · rw [if_pos c1]
      -- not the last one
      have hnl : mid ≠ off2 - 1 := by
        intro e; subst e; have := h3 m hm; omega
      have hml1 : mid + 1 < ts.length := by omega
      obtain ⟨n, hn⟩ : ∃ n, ts[mid+1]? = some n := ⟨_, List.getElem?_eq_getElem hml1⟩
      simp only [hn]
      by_cases c2 : tto ≤ n.1
      · rw [if_pos c2]
        congr 1; symm
        rw [decide_eq_false_iff_not]
        rintro ⟨r, hr, hr1, hr2⟩
        obtain ⟨i, hi⟩ := List.mem_iff_getElem?.1 hr
        rcases Nat.lt_trichotomy i mid with g | g | g
        · have := h.lt hi hm g; have := h.ne hi; omega
        · subst g; rw [hm] at hi; cases hi; omega
        · by_cases e : i = mid + 1
          · subst e; rw [hn] at hi; cases hi; omega
          · have := h.lt hn hi (by omega); have := h.ne hn; omega
      · rw [if_neg c2]
        have hne1 : off1 < mid := by
          rcases Nat.lt_or_ge off1 mid with g | g
          · exact g
          · exfalso
            have : off2 = mid + 1 := by omega
            have := h2 (mid+1) n (by omega) hn
            omega
        apply ih mid off2 (by omega) hlen hm2
        · intro i r hi hr
          have := h.lt hr hm hi; omega
        · exact h2
        · exact h3
        · intro r hr; rw [hm] at hr; cases hr; left; omega
    · rw [if_neg c1]
      by_cases c2 : tto ≤ m.1
      · rw [if_pos c2]
        have hm0 : mid ≠ 0 := by
          intro e; subst e; have := h5 m hm; omega
        rw [if_neg hm0]
        have hml1 : mid - 1 < ts.length := by omega
        obtain ⟨n, hn⟩ : ∃ n, ts[mid-1]? = some n := ⟨_, List.getElem?_eq_getElem hml1⟩
        simp only [hn]
        by_cases c3 : frm ≥ n.2
        · rw [if_pos c3]
          congr 1; symm
          rw [decide_eq_false_iff_not]
          rintro ⟨r, hr, hr1, hr2⟩
          obtain ⟨i, hi⟩ := List.mem_iff_getElem?.1 hr
          rcases Nat.lt_trichotomy i (mid - 1) with g | g | g
          · have := h.lt hi hn g; have := h.ne hn; omega
          · subst g; rw [hn] at hi; cases hi; omega
          · by_cases e : i = mid
            · subst e; rw [hm] at hi; cases hi; omega
            · have := h.lt hm hi (by omega); omega
        · rw [if_neg c3]
          have hne1 : off1 < mid := by
            rcases Nat.lt_or_ge off1 mid with g | g
            · exact g
            · exfalso
              have he : off1 = mid := by omega
              rcases h4 m (by rw [he]; exact hm) with h' | h' <;> omega
          apply ih off1 mid (by omega) (by omega) hne1 h1
          · intro i r hi hr
            rcases Nat.lt_or_ge mid i with g | g
            · have := h.lt hm hr g; omega
            · have : i = mid := by omega
              subst this; rw [hm] at hr; cases hr; exact c2
          · intro r hr; rw [hn] at hr; cases hr; omega
          · exact h4
      · rw [if_neg c2]
        congr 1; symm
        rw [decide_eq_true_iff]
        exact ⟨m, List.mem_of_getElem? hm, by omega, by omega⟩

theorem idxCheck_spec (ts : List (Int × Int)) (h : SortedDisjoint ts) (hne : ts ≠ []) (frm tto : Int)
    (hq : frm < tto) :
    idxCheck ts frm tto = some (decide (∃ r ∈ ts, r.1 < tto ∧ frm < r.2)) := by
  obtain ⟨a, ha⟩ : ∃ a, ts[0]? = some a :=
    ⟨_, List.getElem?_eq_getElem (List.length_pos_iff.2 hne)⟩
  have hpos := List.length_pos_iff.2 hne
  obtain ⟨b, hb⟩ : ∃ b, ts[ts.length - 1]? = some b := ⟨_, List.getElem?_eq_getElem (by omega)⟩
  have ea : ts.head? = some a := by rw [List.head?_eq_getElem?]; exact ha
  have eb : ts.getLast? = some b := by rw [List.getLast?_eq_getElem?]; exact hb
  simp only [idxCheck, ea, eb]
  by_cases c : frm ≥ b.2 ∨ tto ≤ a.1
  · rw [if_pos c]
    congr 1; symm
    rw [decide_eq_false_iff_not]
    rintro ⟨r, hr, hr1, hr2⟩
    obtain ⟨i, hi⟩ := List.mem_iff_getElem?.1 hr
    have hil := (List.getElem?_eq_some_iff.1 hi).1
    rcases c with c | c
    · rcases Nat.lt_or_ge i (ts.length - 1) with g | g
      · have := h.lt hi hb g; have := h.ne hb; omega
      · have : i = ts.length - 1 := by omega
        subst this; rw [hb] at hi; cases hi; omega
    · rcases Nat.eq_zero_or_pos i with g | g
      · subst g; rw [ha] at hi; cases hi; omega
      · have := h.lt ha hi g; have := h.ne ha; omega
  · rw [if_neg c]
    rw [not_or] at c
    apply idxSearch_spec ts h frm tto hq _ _ _ (by omega) (Nat.le_refl _) hpos
    · intro i r hi _; omega
    · intro i r hi hr
      have := (List.getElem?_eq_some_iff.1 hr).1; omega
    · intro r hr; rw [hb] at hr; cases hr; omega
    · intro r hr; exact Or.inr rfl
    · intro r hr; rw [ha] at hr; cases hr; omega

end Laik
