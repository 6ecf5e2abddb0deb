import Verif.Model.RangeListLemmas
import Mathlib.Data.List.Nodup
/-!
# Model of transition calculation for 1d spaces (`src/space.c` 690-1330)
-/

namespace Laik

/-- `RangeBorder`, src/space.c 772-778. -/
structure Border where
  b : Int
  task : Nat
  rangeNo : Nat
  mapNo : Int
  isStart : Bool
  isInput : Bool
  deriving DecidableEq, Repr

/-- Conversion of a 64-bit difference to `int`. -/
def wrap32 (x : Int) : Int := (x + 2 ^ 31) % 2 ^ 32 - 2 ^ 31

/-- `rb_cmp`, src/space.c 828-838: the difference of borders is converted from
`int64_t` to `int` (64-bit overflow of the difference not modelled). -/
def rbCmp (p q : Border) : Int :=
  if p.b = q.b then (if p.isStart then 1 else 0) - (if q.isStart then 1 else 0)
  else wrap32 (p.b - q.b)

/-- Result of the `qsort` in line 1123: any permutation sorted according to
`rb_cmp`. -/
def IsBorderSort (s l : List Border) : Prop := s.Perm l ∧ s.Pairwise (fun p q => rbCmp p q ≤ 0)

/-- Numbering of the ranges of each task/map, src/space.c 1089-1104. -/
def numGo : Option (Nat × Int) → Nat → List TR → List (TR × Nat)
  | _, _, [] => []
  | last, k, r :: rs =>
    let k := if last = some (r.task, r.mapNo) then k else 0
    (r, k) :: numGo (some (r.task, r.mapNo)) (k + 1) rs

/-- Ranges with number; `lastTask` is -1 at the start (1091, 1105). -/
def numbered (l : List TR) : List (TR × Nat) := numGo none 0 l

/-- Start border of a range (1101, 1115). -/
def sB (i : Bool) (r : TR × Nat) : Border := ⟨r.1.box.lo.x, r.1.task, r.2, r.1.mapNo, true, i⟩

/-- End border of a range (1102, 1116). -/
def eB (i : Bool) (r : TR × Nat) : Border := ⟨r.1.box.hi.x, r.1.task, r.2, r.1.mapNo, false, i⟩

/-- Borders of all ranges of one list, src/space.c 1093-1118. -/
def bordersOf (i : Bool) (R : List (TR × Nat)) : List Border := R.flatMap (fun r => [sB i r, eB i r])

/-- `addTask`, src/space.c 840-858, `none`: returns false (limit of 65536 tasks
not modelled). -/
def addTask : List Nat → Nat → Option (List Nat)
  | [], t => some [t]
  | a :: l, t => if t < a then some (t :: a :: l) else if t = a then none else (addTask l t).map (a :: ·)

/-- `removeTask`, src/space.c 860-876, `none`: returns false.  If the task is not
in the group and larger than all tasks in it, the last one is removed. -/
def removeTask : List Nat → Nat → Option (List Nat)
  | [], _ => none
  | [a], t => if t < a then none else some []
  | a :: b :: l, t => if t < a then none else if t = a then some (b :: l) else (removeTask (b :: l) t).map (a :: ·)

/-- Operations of a transition (`localTOp`, `sendTOp`, `recvTOp`, `redTOp`,
include/laik/space-internal.h): range, pairs of range number and map number,
other task or group ids. -/
inductive TOp
  | loc (x y : Int) (inNo outNo : Int × Int)
  | send (x y : Int) (no : Int × Int) (toTask : Nat)
  | recv (x y : Int) (no : Int × Int) (fromTask : Nat)
  | red (x y : Int) (inGroup outGroup : Int) (inNo outNo : Int × Int)
  deriving DecidableEq, Repr

/-- State of the traversal, src/space.c 1126-1139; `myIn`, `myOut` are the bits
of `myActivity`; operations are kept in one list in order of being appended. -/
structure TSt where
  inG : List Nat
  outG : List Nat
  myIn : Bool
  myOut : Bool
  inNo : Int × Int
  outNo : Int × Int
  groups : List (List Nat)
  ops : List TOp
  deriving DecidableEq, Repr

/-- Update at a border, src/space.c 1155-1185. -/
def tUpdate (myid : Nat) (st : TSt) (sb : Border) : Option TSt :=
  if sb.isInput then
    if sb.isStart then
      (addTask st.inG sb.task).map (fun g =>
        if sb.task = myid then { st with inG := g, myIn := true, inNo := (sb.rangeNo, sb.mapNo) }
        else { st with inG := g })
    else
      (removeTask st.inG sb.task).map (fun g =>
        if sb.task = myid then { st with inG := g, myIn := false } else { st with inG := g })
  else
    if sb.isStart then
      (addTask st.outG sb.task).map (fun g =>
        if sb.task = myid then { st with outG := g, myOut := true, outNo := (sb.rangeNo, sb.mapNo) }
        else { st with outG := g })
    else
      (removeTask st.outG sb.task).map (fun g =>
        if sb.task = myid then { st with outG := g, myOut := false } else { st with outG := g })

/-- `getTaskGroup`, src/space.c 746-768: index and updated group list. -/
def getTaskGroup (gs : List (List Nat)) (g : List Nat) : Nat × List (List Nat) :=
  if g ∈ gs then (gs.idxOf g, gs) else (gs.length, gs ++ [g])

/-- Receive operation from the only input task, src/space.c 1272-1287. -/
def recvOps (x y : Int) (myid : Nat) (st : TSt) : List TOp :=
  (st.outG.filter (fun o => decide (o = myid))).map (fun _ => .recv x y st.outNo (st.inG.headD 0))

/-- Adding operations for a range `[x;y[`, src/space.c 1198-1323; `redOp` is the
code of the reduction (0: none, 100: custom); `none`: failed asserts 1199, 1208,
1319.  `tflags` is always 0 (1343). -/
def emit (n redOp myid : Nat) (x y : Int) (st : TSt) : Option TSt :=
  if !(st.myIn || st.myOut) then some st
  else if !(st.inG.contains myid || st.outG.contains myid) then none
  else if st.inG.length = 1 then
    if redOp < 100 then
      if st.inG = [myid] then
        if st.outG = [myid] then some { st with ops := st.ops ++ [.loc x y st.inNo st.outNo] }
        else some { st with ops := st.ops ++ List.map (fun o =>
          if o = myid then TOp.loc x y st.inNo st.outNo else TOp.send x y st.inNo o) st.outG }
      else some { st with ops := st.ops ++ recvOps x y myid st }
    else none
  else
    let i := getTaskGroup st.groups st.inG
    let o := getTaskGroup i.2 st.outG
    if redOp = 0 then none
    else some { st with groups := o.2, ops := st.ops ++
      [.red x y (if st.inG.length = n then -1 else i.1) (if st.outG.length = n then -1 else o.1) st.inNo st.outNo] }

/-- The traversal, src/space.c 1145-1328. -/
def trav (n redOp myid : Nat) : TSt → List Border → Option TSt
  | st, [] => if st.inG = [] ∧ st.outG = [] then some st else none
  | st, sb :: rest =>
    match tUpdate myid st sb with
    | none => none
    | some st =>
      match (match rest.head? with
        | none => some st
        | some nb => if nb.b > sb.b then emit n redOp myid sb.b nb.b st else some st) with
      | none => none
      | some st => trav n redOp myid st rest

/-- `calcAddReductions`, src/space.c 1061-1330, for group size `n`, process
`myid` and the range lists of both partitionings; `sorted` is the result of the
`qsort`.  (An empty border list gives no operations, line 1120.) -/
def calcAddReductions (n redOp myid : Nat) (sorted : List Border) : Option TSt :=
  trav n redOp myid ⟨[], [], false, false, (-1, -1), (-1, -1), [], []⟩ sorted

/-- The borders of a transition. -/
def transBorders (fromL toL : List TR) : List Border :=
  bordersOf true (numbered fromL) ++ bordersOf false (numbered toL)

/-- `laik_trans_groupCount`/`laik_trans_taskInGroup`, src/space.c 1671-1692: the
tasks of a group id. -/
def transGroup (n : Nat) (gs : List (List Nat)) (i : Int) : List Nat :=
  if i = -1 then List.range n else gs[i.toNat]?.getD []

/-! ### Operations with groups resolved, and their specification -/

/-- Operations with task lists instead of group ids; numbers for reductions only
if this process takes part as input/output. -/
inductive ROp
  | loc (x y : Int) (inNo outNo : Int × Int)
  | send (x y : Int) (no : Int × Int) (toTask : Nat)
  | recv (x y : Int) (no : Int × Int) (fromTask : Nat)
  | red (x y : Int) (ins outs : List Nat) (inNo outNo : Option (Int × Int))
  deriving DecidableEq, Repr

def TOp.resolve (n myid : Nat) (gs : List (List Nat)) : TOp → ROp
  | .loc x y a b => .loc x y a b
  | .send x y a t => .send x y a t
  | .recv x y a t => .recv x y a t
  | .red x y i o a b => .red x y (transGroup n gs i) (transGroup n gs o)
      (if myid ∈ transGroup n gs i then some a else none)
      (if myid ∈ transGroup n gs o then some b else none)

/-- Range `r` contains index `x` (1d). -/
def TR.has (r : TR) (x : Int) : Prop := r.box.lo.x ≤ x ∧ x < r.box.hi.x

instance (r : TR) (x : Int) : Decidable (r.has x) := by unfold TR.has; infer_instance

/-- Specification: processes owning `x` in ascending order. -/
def ownersAt (L : List TR) (n : Nat) (x : Int) : List Nat :=
  (List.range n).filter (fun t => L.any (fun r => decide (r.task = t ∧ r.has x)))

/-- Specification: number and map of the range of process `t` containing `x`. -/
def noAt (L : List TR) (t : Nat) (x : Int) : Int × Int :=
  match (numbered L).find? (fun r => decide (r.1.task = t ∧ r.1.has x)) with
  | none => (-1, -1)
  | some r => (r.2, r.1.mapNo)

/-- Consecutive different values of a sorted list. -/
def segsOf : List Int → List (Int × Int)
  | [] => []
  | [_] => []
  | a :: b :: l => if a < b then (a, b) :: segsOf (b :: l) else segsOf (b :: l)

/-- Specification of the operations of process `myid` for the range `[x;y[`
without borders inside. -/
def specSeg (n redOp myid : Nat) (fromL toL : List TR) (x y : Int) : Option (List ROp) :=
  let ins := ownersAt fromL n x
  let outs := ownersAt toL n x
  if myid ∉ ins ∧ myid ∉ outs then some []
  else if ins.length = 1 then
    if redOp < 100 then
      if ins = [myid] then
        some (outs.map (fun o => if o = myid then .loc x y (noAt fromL myid x) (noAt toL myid x)
          else .send x y (noAt fromL myid x) o))
      else some (if myid ∈ outs then [.recv x y (noAt toL myid x) (ins.headD 0)] else [])
    else none
  else if redOp = 0 then none
  else some [.red x y ins outs (if myid ∈ ins then some (noAt fromL myid x) else none)
      (if myid ∈ outs then some (noAt toL myid x) else none)]

/-- Sorted border positions of both lists. -/
def cutsOf (fromL toL : List TR) : List Int :=
  ((fromL ++ toL).flatMap (fun r => [r.box.lo.x, r.box.hi.x])).mergeSort (fun a b => decide (a ≤ b))

/-- Concatenation of partial results. -/
def collect {α β : Type} (f : α → Option (List β)) : List α → Option (List β)
  | [] => some []
  | a :: l => (f a).bind (fun x => (collect f l).map (x ++ ·))

/-- Specification of all operations of a process. -/
def specOps (n redOp myid : Nat) (fromL toL : List TR) : Option (List ROp) :=
  collect (fun s => specSeg n redOp myid fromL toL s.1 s.2) (segsOf (cutsOf fromL toL))

/-- Range lists for which the calculation is defined: process numbers in the
group, no empty ranges, ranges of one process do not overlap. -/
structure GoodList (n : Nat) (L : List TR) : Prop where
  task : ∀ r ∈ L, r.task < n
  ne : ∀ r ∈ L, r.box.lo.x < r.box.hi.x
  dis : L.Pairwise (fun a b => a.task = b.task → a.box.hi.x ≤ b.box.lo.x ∨ b.box.hi.x ≤ a.box.lo.x)

/-- Borders small enough for the comparison function to be correct. -/
def SmallList (L : List TR) : Prop :=
  ∀ r ∈ L, -2^30 ≤ r.box.lo.x ∧ r.box.lo.x < 2^30 ∧ -2^30 ≤ r.box.hi.x ∧ r.box.hi.x < 2^30

/-! ### Basic lemmas -/

theorem numGo_fst (last : Option (Nat × Int)) (k : Nat) (l : List TR) : (numGo last k l).map (·.1) = l := by
  induction l generalizing last k with
  | nil => rfl
  | cons r rs ih => simp [numGo, ih]

theorem numbered_fst (l : List TR) : (numbered l).map (·.1) = l := numGo_fst _ _ _

theorem mem_bordersOf (i : Bool) (R : List (TR × Nat)) (c : Border) :
    c ∈ bordersOf i R ↔ ∃ r ∈ R, c = sB i r ∨ c = eB i r := by
  simp [bordersOf, List.mem_flatMap]

/-- The intended order. -/
def ble (p q : Border) : Prop := p.b < q.b ∨ (p.b = q.b ∧ (p.isStart = true → q.isStart = true))

theorem rbCmp_le (p q : Border) (hp : -2^30 ≤ p.b ∧ p.b < 2^30) (hq : -2^30 ≤ q.b ∧ q.b < 2^30) :
    rbCmp p q ≤ 0 ↔ ble p q := by
  unfold rbCmp ble wrap32
  by_cases h : p.b = q.b
  · rw [if_pos h]
    cases p.isStart <;> cases q.isStart <;> simp [h]
  · rw [if_neg h]
    have : (p.b - q.b + 2 ^ 31) % 2 ^ 32 = p.b - q.b + 2 ^ 31 := by
      apply Int.emod_eq_of_lt <;> omega
    rw [this]
    simp only [h, false_and, or_false]
    omega

/-- Condition on numbered ranges. -/
structure GoodNum (R : List (TR × Nat)) : Prop where
  ne : ∀ r ∈ R, r.1.box.lo.x < r.1.box.hi.x
  dis : R.Pairwise (fun a b => a.1.task = b.1.task → a.1.box.hi.x ≤ b.1.box.lo.x ∨ b.1.box.hi.x ≤ a.1.box.lo.x)

theorem GoodList.num {n : Nat} {L : List TR} (h : GoodList n L) : GoodNum (numbered L) := by
  constructor
  · intro r hr
    apply h.ne
    rw [← numbered_fst L]; exact List.mem_map.2 ⟨r, hr, rfl⟩
  · have := h.dis
    rw [← numbered_fst L, List.pairwise_map] at this
    exact this

theorem GoodNum.dis' {R : List (TR × Nat)} (h : GoodNum R) {a b : TR × Nat} (ha : a ∈ R) (hb : b ∈ R)
    (hab : a ≠ b) (ht : a.1.task = b.1.task) : a.1.box.hi.x ≤ b.1.box.lo.x ∨ b.1.box.hi.x ≤ a.1.box.lo.x := by
  obtain ⟨i, hi, rfl⟩ := List.mem_iff_getElem.1 ha
  obtain ⟨j, hj, rfl⟩ := List.mem_iff_getElem.1 hb
  have hp := List.pairwise_iff_getElem.1 h.dis
  rcases Nat.lt_trichotomy i j with g | g | g
  · exact hp i j hi hj g ht
  · subst g; exact absurd rfl hab
  · exact (hp j i hj hi g ht.symm).symm

theorem GoodNum.nodup {R : List (TR × Nat)} (h : GoodNum R) : R.Nodup := by
  unfold List.Nodup
  refine List.Pairwise.imp_of_mem ?_ h.dis
  intro a b ha hb hab e
  subst e
  have := h.ne a ha
  have := hab rfl; omega

theorem bordersOf_nodup {i : Bool} {R : List (TR × Nat)} (h : GoodNum R) : (bordersOf i R).Nodup := by
  unfold bordersOf List.Nodup
  rw [List.pairwise_flatMap]
  constructor
  · intro r _
    simp [sB, eB]
  · refine List.Pairwise.imp_of_mem ?_ h.nodup
    intro a b ha hb hab u hu v hv e
    simp only [List.mem_cons, List.not_mem_nil, or_false] at hu hv
    have ea := h.ne a ha
    have eb := h.ne b hb
    rcases hu with rfl | rfl <;> rcases hv with rfl | rfl <;> simp only [sB, eB, Border.mk.injEq] at e
    · have := h.dis' ha hb hab e.2.1; omega
    · simp at e
    · simp at e
    · have := h.dis' ha hb hab e.2.1; omega

theorem strictSorted_ext {l m : List Nat} (hl : l.Pairwise (· < ·)) (hm : m.Pairwise (· < ·))
    (h : ∀ t, t ∈ l ↔ t ∈ m) : l = m := by
  induction l generalizing m with
  | nil =>
    cases m with
    | nil => rfl
    | cons b m => exact absurd ((h b).2 List.mem_cons_self) (by simp)
  | cons a l ih =>
    cases m with
    | nil => exact absurd ((h a).1 List.mem_cons_self) (by simp)
    | cons b m =>
      rw [List.pairwise_cons] at hl hm
      have hab : a = b := by
        rcases List.mem_cons.1 ((h a).1 List.mem_cons_self) with e | e
        · exact e
        · rcases List.mem_cons.1 ((h b).2 List.mem_cons_self) with e' | e'
          · exact e'.symm
          · have := hm.1 a e; have := hl.1 b e'; omega
      subst hab
      congr 1
      apply ih hl.2 hm.2
      intro t
      constructor
      · intro ht
        rcases List.mem_cons.1 ((h t).1 (List.mem_cons_of_mem _ ht)) with e | e
        · have := hl.1 t ht; omega
        · exact e
      · intro ht
        rcases List.mem_cons.1 ((h t).2 (List.mem_cons_of_mem _ ht)) with e | e
        · have := hm.1 t ht; omega
        · exact e

theorem ownersAt_sorted (L : List TR) (n : Nat) (x : Int) : (ownersAt L n x).Pairwise (· < ·) :=
  List.pairwise_lt_range.filter _

theorem mem_ownersAt {L : List TR} {n : Nat} (h : ∀ r ∈ L, r.task < n) (x : Int) (t : Nat) :
    t ∈ ownersAt L n x ↔ ∃ r ∈ L, r.task = t ∧ r.has x := by
  simp only [ownersAt, List.mem_filter, List.mem_range, List.any_eq_true, decide_eq_true_eq]
  constructor
  · rintro ⟨_, r, hr, h⟩; exact ⟨r, hr, h⟩
  · rintro ⟨r, hr, rfl, h'⟩; exact ⟨h r hr, r, hr, rfl, h'⟩

theorem addTask_spec (g : List Nat) (t : Nat) (hs : g.Pairwise (· < ·)) (hn : t ∉ g) :
    ∃ g', addTask g t = some g' ∧ g'.Pairwise (· < ·) ∧ ∀ u, u ∈ g' ↔ u = t ∨ u ∈ g := by
  induction g with
  | nil => exact ⟨[t], rfl, by simp, by simp⟩
  | cons a l ih =>
    rw [List.pairwise_cons] at hs
    have hta : t ≠ a := fun e => hn (by simp [e])
    rw [addTask]
    by_cases c : t < a
    · rw [if_pos c]
      refine ⟨_, rfl, ?_, by simp⟩
      rw [List.pairwise_cons, List.pairwise_cons]
      refine ⟨fun u hu => ?_, hs⟩
      rcases List.mem_cons.1 hu with rfl | hu
      · exact c
      · have := hs.1 u hu; omega
    · rw [if_neg c, if_neg hta]
      obtain ⟨g', e, h1, h2⟩ := ih hs.2 (fun h => hn (List.mem_cons_of_mem _ h))
      rw [e]
      refine ⟨_, rfl, ?_, ?_⟩
      · rw [List.pairwise_cons]
        refine ⟨fun u hu => ?_, h1⟩
        rcases (h2 u).1 hu with rfl | hu
        · omega
        · exact hs.1 u hu
      · intro u
        simp only [List.mem_cons, h2 u]
        tauto

theorem removeTask_spec (g : List Nat) (t : Nat) (hs : g.Pairwise (· < ·)) (hm : t ∈ g) :
    ∃ g', removeTask g t = some g' ∧ g'.Pairwise (· < ·) ∧ ∀ u, u ∈ g' ↔ u ≠ t ∧ u ∈ g := by
  induction g with
  | nil => cases hm
  | cons a l ih =>
    rw [List.pairwise_cons] at hs
    cases l with
    | nil =>
      rw [List.mem_singleton] at hm; subst hm
      refine ⟨[], by simp [removeTask], by simp, by simp⟩
    | cons b l =>
      rw [removeTask]
      have hab := hs.1 b List.mem_cons_self
      rcases List.mem_cons.1 hm with e | hm'
      · subst e
        rw [if_neg (by omega), if_pos rfl]
        refine ⟨_, rfl, hs.2, ?_⟩
        intro u
        constructor
        · intro hu
          refine ⟨fun e => ?_, List.mem_cons_of_mem _ hu⟩
          have := hs.1 u hu; omega
        · rintro ⟨h1, h2⟩
          rcases List.mem_cons.1 h2 with e | h2
          · exact absurd e h1
          · exact h2
      · have := hs.1 t hm'
        rw [if_neg (by omega), if_neg (by omega)]
        obtain ⟨g', e, h1, h2⟩ := ih hs.2 hm'
        rw [e]
        refine ⟨_, rfl, ?_, ?_⟩
        · rw [List.pairwise_cons]
          exact ⟨fun u hu => hs.1 u ((h2 u).1 hu).2, h1⟩
        · intro u
          simp only [List.mem_cons (a := u) (b := a), h2 u]
          constructor
          · rintro (rfl | ⟨h3, h4⟩)
            · exact ⟨by omega, Or.inl rfl⟩
            · exact ⟨h3, Or.inr h4⟩
          · rintro ⟨h3, h4 | h4⟩
            · exact Or.inl h4
            · exact Or.inr ⟨h3, h4⟩

/-! ### The task groups during the traversal -/

/-- Range `r` is open after the borders in `pre`. -/
def Opened (i : Bool) (pre : List Border) (r : TR × Nat) : Prop := sB i r ∈ pre ∧ eB i r ∉ pre

/-- Invariant of a task group. -/
structure GInv (R : List (TR × Nat)) (i : Bool) (pre : List Border) (g : List Nat) : Prop where
  sorted : g.Pairwise (· < ·)
  mem : ∀ t, t ∈ g ↔ ∃ r ∈ R, r.1.task = t ∧ Opened i pre r

section
variable {R : List (TR × Nat)} (hR : GoodNum R) {i : Bool} {pre rest : List Border} {c : Border}
  (hs : (pre ++ c :: rest).Pairwise ble) (hnd : (pre ++ c :: rest).Nodup)
  (hin : ∀ r ∈ R, sB i r ∈ pre ++ c :: rest ∧ eB i r ∈ pre ++ c :: rest)

include hs in
theorem before_le {d : Border} (hd : d ∈ pre) : ble d c := by
  rw [List.pairwise_append] at hs
  exact hs.2.2 d hd c List.mem_cons_self

include hs in
theorem after_le {d : Border} (hd : d ∈ pre ++ c :: rest) (h1 : d ∉ pre) (h2 : d ≠ c) : ble c d := by
  rw [List.pairwise_append, List.pairwise_cons] at hs
  rcases List.mem_append.1 hd with h | h
  · exact absurd h h1
  · rcases List.mem_cons.1 h with h | h
    · exact absurd h h2
    · exact hs.2.1.1 d h

include hnd in
theorem cur_not_pre : c ∉ pre := by
  unfold List.Nodup at hnd
  rw [List.pairwise_append] at hnd
  intro h
  exact hnd.2.2 c h c List.mem_cons_self rfl

include hR hs hnd hin in
theorem ginv_start {g : List Nat} (hg : GInv R i pre g) {r : TR × Nat} (hr : r ∈ R) (hc : c = sB i r) :
    ∃ g', addTask g r.1.task = some g' ∧ GInv R i (pre ++ [c]) g' ∧ r.1.task ∉ g ∧
      ∀ u, u ∈ g' ↔ u = r.1.task ∨ u ∈ g := by
  have hcp := cur_not_pre hnd
  have hrne := hR.ne r hr
  have hnot : r.1.task ∉ g := by
    rw [hg.mem]
    rintro ⟨r', hr', ht, h1, h2⟩
    have hne : r' ≠ r := by
      rintro rfl; rw [← hc] at h1; exact hcp h1
    have hr'ne := hR.ne r' hr'
    have hb := before_le hs h1
    have ha := after_le hs (hin r' hr').2 h2 (by rw [hc]; simp [sB, eB])
    have hd := hR.dis' hr' hr hne ht
    rw [hc] at ha hb
    simp only [ble, sB, eB] at ha hb
    simp at ha
    omega
  obtain ⟨g', e, h1, h2⟩ := addTask_spec g r.1.task hg.sorted hnot
  refine ⟨g', e, ⟨h1, ?_⟩, hnot, h2⟩
  intro t
  rw [h2 t]
  have hend : ∀ q : TR × Nat, eB i q ∈ pre ++ [c] ↔ eB i q ∈ pre := by
    intro q
    rw [List.mem_append, List.mem_singleton, hc]
    simp [sB, eB]
  constructor
  · rintro (rfl | ht)
    · refine ⟨r, hr, rfl, ?_, ?_⟩
      · rw [← hc]; simp
      · rw [hend]
        intro h
        have := before_le hs h
        rw [hc] at this
        simp only [ble, sB, eB] at this; omega
    · obtain ⟨q, hq, h3, h4, h5⟩ := (hg.mem t).1 ht
      exact ⟨q, hq, h3, List.mem_append_left _ h4, by rw [hend]; exact h5⟩
  · rintro ⟨q, hq, h3, h4, h5⟩
    rw [hend] at h5
    rcases List.mem_append.1 h4 with h | h
    · exact Or.inr ((hg.mem t).2 ⟨q, hq, h3, h, h5⟩)
    · rw [List.mem_singleton, hc] at h
      left
      rw [← h3]
      simp only [sB, Border.mk.injEq] at h
      exact h.2.1

include hR hs hnd hin in
theorem ginv_end {g : List Nat} (hg : GInv R i pre g) {r : TR × Nat} (hr : r ∈ R) (hc : c = eB i r) :
    ∃ g', removeTask g r.1.task = some g' ∧ GInv R i (pre ++ [c]) g' ∧
      ∀ u, u ∈ g' ↔ u ≠ r.1.task ∧ u ∈ g := by
  have hcp := cur_not_pre hnd
  have hrne := hR.ne r hr
  have hst : sB i r ∈ pre := by
    by_contra h
    have := after_le hs (hin r hr).1 h (by rw [hc]; simp [sB, eB])
    rw [hc] at this
    simp only [ble, sB, eB] at this; omega
  have hmem : r.1.task ∈ g := (hg.mem _).2 ⟨r, hr, rfl, hst, by rw [← hc]; exact hcp⟩
  obtain ⟨g', e, h1, h2⟩ := removeTask_spec g r.1.task hg.sorted hmem
  refine ⟨g', e, ⟨h1, ?_⟩, h2⟩
  intro t
  rw [h2 t]
  have hstart : ∀ q : TR × Nat, sB i q ∈ pre ++ [c] ↔ sB i q ∈ pre := by
    intro q
    rw [List.mem_append, List.mem_singleton, hc]
    simp [sB, eB]
  constructor
  · rintro ⟨hne, ht⟩
    obtain ⟨q, hq, h3, h4, h5⟩ := (hg.mem t).1 ht
    refine ⟨q, hq, h3, List.mem_append_left _ h4, ?_⟩
    intro h
    rcases List.mem_append.1 h with h | h
    · exact h5 h
    · rw [List.mem_singleton, hc] at h
      simp only [eB, Border.mk.injEq] at h
      exact hne (by rw [← h3]; exact h.2.1)
  · rintro ⟨q, hq, h3, h4, h5⟩
    rw [hstart] at h4
    have h5' : eB i q ∉ pre := fun h => h5 (List.mem_append_left _ h)
    have h5c : eB i q ≠ c := fun h => h5 (by rw [h]; simp)
    refine ⟨?_, (hg.mem t).2 ⟨q, hq, h3, h4, h5'⟩⟩
    intro ht
    have hqr : q ≠ r := fun e => h5c (by rw [e, hc])
    have hqne := hR.ne q hq
    have hd := hR.dis' hq hr hqr (by rw [h3, ht])
    have hb := before_le hs h4
    have ha := after_le hs (hin q hq).2 h5' h5c
    rw [hc] at ha hb
    simp only [ble, sB, eB] at ha hb
    simp at hb
    omega

theorem ginv_other {g : List Nat} (hg : GInv R i pre g) (hc : c.isInput ≠ i) : GInv R i (pre ++ [c]) g := by
  refine ⟨hg.sorted, fun t => ?_⟩
  rw [hg.mem t]
  have h1 : ∀ q : TR × Nat, sB i q ∈ pre ++ [c] ↔ sB i q ∈ pre := by
    intro q
    rw [List.mem_append, List.mem_singleton]
    constructor
    · rintro (h | h)
      · exact h
      · exact absurd (by rw [← h]; rfl) hc
    · exact Or.inl
  have h2 : ∀ q : TR × Nat, eB i q ∈ pre ++ [c] ↔ eB i q ∈ pre := by
    intro q
    rw [List.mem_append, List.mem_singleton]
    constructor
    · rintro (h | h)
      · exact h
      · exact absurd (by rw [← h]; rfl) hc
    · exact Or.inl
  simp only [Opened, h1, h2]

end

/-- At the end of a position (all borders up to `x` processed), open ranges are
those containing `x`. -/
theorem opened_iff {i : Bool} {pre rest : List Border} {R : List (TR × Nat)} {x : Int}
    (hin : ∀ r ∈ R, sB i r ∈ pre ++ rest ∧ eB i r ∈ pre ++ rest)
    (h1 : ∀ d ∈ pre, d.b ≤ x) (h2 : ∀ d ∈ rest, x < d.b) {r : TR × Nat} (hr : r ∈ R) :
    Opened i pre r ↔ r.1.has x := by
  have key : ∀ d ∈ pre ++ rest, (d ∈ pre ↔ d.b ≤ x) := by
    intro d hd
    constructor
    · exact h1 d
    · intro h
      rcases List.mem_append.1 hd with g | g
      · exact g
      · have := h2 d g; omega
  unfold Opened TR.has
  rw [key _ (hin r hr).1, key _ (hin r hr).2]
  simp only [sB, eB]; omega

theorem opened_step {i : Bool} {pre : List Border} {c : Border} {r : TR × Nat} (h : Opened i (pre ++ [c]) r) :
    Opened i pre r ∨ sB i r = c := by
  obtain ⟨h1, h2⟩ := h
  rcases List.mem_append.1 h1 with h | h
  · exact Or.inl ⟨h, fun g => h2 (List.mem_append_left _ g)⟩
  · exact Or.inr (List.mem_singleton.1 h)

/-- Invariant of the traversal. -/
structure TInv (myid : Nat) (RF RT : List (TR × Nat)) (pre : List Border) (st : TSt) : Prop where
  gin : GInv RF true pre st.inG
  gout : GInv RT false pre st.outG
  myIn : st.myIn = decide (myid ∈ st.inG)
  myOut : st.myOut = decide (myid ∈ st.outG)
  inNo : ∀ r ∈ RF, r.1.task = myid → Opened true pre r → st.inNo = ((r.2 : Int), r.1.mapNo)
  outNo : ∀ r ∈ RT, r.1.task = myid → Opened false pre r → st.outNo = ((r.2 : Int), r.1.mapNo)

theorem tUpdate_inv {myid : Nat} {RF RT : List (TR × Nat)} (hF : GoodNum RF) (hT : GoodNum RT)
    {pre rest : List Border} {c : Border} {st : TSt}
    (hs : (pre ++ c :: rest).Pairwise ble) (hnd : (pre ++ c :: rest).Nodup)
    (hmem : ∀ d, d ∈ pre ++ c :: rest ↔ d ∈ bordersOf true RF ∨ d ∈ bordersOf false RT)
    (h : TInv myid RF RT pre st) :
    ∃ st', tUpdate myid st c = some st' ∧ TInv myid RF RT (pre ++ [c]) st' ∧
      st'.groups = st.groups ∧ st'.ops = st.ops := by
  have hinF : ∀ r ∈ RF, sB true r ∈ pre ++ c :: rest ∧ eB true r ∈ pre ++ c :: rest := by
    intro r hr
    rw [hmem, hmem]
    exact ⟨Or.inl ((mem_bordersOf _ _ _).2 ⟨r, hr, Or.inl rfl⟩), Or.inl ((mem_bordersOf _ _ _).2 ⟨r, hr, Or.inr rfl⟩)⟩
  have hinT : ∀ r ∈ RT, sB false r ∈ pre ++ c :: rest ∧ eB false r ∈ pre ++ c :: rest := by
    intro r hr
    rw [hmem, hmem]
    exact ⟨Or.inr ((mem_bordersOf _ _ _).2 ⟨r, hr, Or.inl rfl⟩), Or.inr ((mem_bordersOf _ _ _).2 ⟨r, hr, Or.inr rfl⟩)⟩
  have keepF : (¬ ∃ r ∈ RF, r.1.task = myid ∧ sB true r = c) →
      ∀ r ∈ RF, r.1.task = myid → Opened true (pre ++ [c]) r → st.inNo = ((r.2 : Int), r.1.mapNo) := by
    intro hn r hr ht ho
    rcases opened_step ho with ho | ho
    · exact h.inNo r hr ht ho
    · exact absurd ⟨r, hr, ht, ho⟩ hn
  have keepT : (¬ ∃ r ∈ RT, r.1.task = myid ∧ sB false r = c) →
      ∀ r ∈ RT, r.1.task = myid → Opened false (pre ++ [c]) r → st.outNo = ((r.2 : Int), r.1.mapNo) := by
    intro hn r hr ht ho
    rcases opened_step ho with ho | ho
    · exact h.outNo r hr ht ho
    · exact absurd ⟨r, hr, ht, ho⟩ hn
  rcases (hmem c).1 (by simp) with hc | hc <;> obtain ⟨r, hr, hc | hc⟩ := (mem_bordersOf _ _ _).1 hc
  · -- start of input
    obtain ⟨g', e, hg', hnot, hm⟩ := ginv_start hF hs hnd hinF h.gin hr hc
    have hgo := ginv_other (c := c) h.gout (by rw [hc]; simp [sB])
    have hkT := keepT (by rintro ⟨q, _, _, e⟩; rw [hc] at e; simp [sB] at e)
    by_cases ht : r.1.task = myid
    · refine ⟨{ st with inG := g', myIn := true, inNo := ((r.2 : Int), r.1.mapNo) }, ?_, ?_, rfl, rfl⟩
      · rw [tUpdate, hc]
        simp [sB, ht]
        rw [← ht, e]
      · refine ⟨hg', hgo, ?_, h.myOut, ?_, hkT⟩
        · show true = decide (myid ∈ g')
          symm; rw [decide_eq_true_eq, hm]; exact Or.inl ht.symm
        · intro q hq hqt ho
          rcases opened_step ho with ho | ho
          · exact absurd ((h.gin.mem _).2 ⟨q, hq, hqt.trans ht.symm, ho⟩) hnot
          · rw [hc] at ho
            simp only [sB, Border.mk.injEq] at ho
            show ((r.2 : Int), r.1.mapNo) = _
            rw [ho.2.2.1, ho.2.2.2.1]
    · refine ⟨{ st with inG := g' }, ?_, ?_, rfl, rfl⟩
      · rw [tUpdate, hc]
        simp only [sB, if_true, e, Option.map_some, ht, if_false]
      · refine ⟨hg', hgo, ?_, h.myOut, ?_, hkT⟩
        · show st.myIn = decide (myid ∈ g')
          rw [h.myIn, decide_eq_decide, hm]
          constructor
          · exact Or.inr
          · rintro (e | e)
            · exact absurd e.symm ht
            · exact e
        · refine keepF ?_
          rintro ⟨q, _, hqt, e⟩; rw [hc] at e; simp only [sB, Border.mk.injEq] at e
          exact ht (e.2.1.symm.trans hqt)
  · -- end of input
    obtain ⟨g', e, hg', hm⟩ := ginv_end hF hs hnd hinF h.gin hr hc
    have hgo := ginv_other (c := c) h.gout (by rw [hc]; simp [eB])
    have hkT := keepT (by rintro ⟨q, _, _, e⟩; rw [hc] at e; simp [sB, eB] at e)
    have hkF := keepF (by rintro ⟨q, _, _, e⟩; rw [hc] at e; simp [sB, eB] at e)
    by_cases ht : r.1.task = myid
    · refine ⟨{ st with inG := g', myIn := false }, ?_, ⟨hg', hgo, ?_, h.myOut, hkF, hkT⟩, rfl, rfl⟩
      · rw [tUpdate, hc]
        simp [eB, ht]
        rw [← ht, e]
      · show false = decide (myid ∈ g')
        symm; rw [decide_eq_false_iff_not, hm]; exact fun x => x.1 ht.symm
    · refine ⟨{ st with inG := g' }, ?_, ⟨hg', hgo, ?_, h.myOut, hkF, hkT⟩, rfl, rfl⟩
      · rw [tUpdate, hc]
        simp [eB, e, ht]
      · show st.myIn = decide (myid ∈ g')
        rw [h.myIn, decide_eq_decide, hm]
        exact ⟨fun x => ⟨fun y => ht y.symm, x⟩, fun x => x.2⟩
  · -- start of output
    obtain ⟨g', e, hg', hnot, hm⟩ := ginv_start hT hs hnd hinT h.gout hr hc
    have hgo := ginv_other (c := c) h.gin (by rw [hc]; simp [sB])
    have hkF := keepF (by rintro ⟨q, _, _, e⟩; rw [hc] at e; simp [sB] at e)
    by_cases ht : r.1.task = myid
    · refine ⟨{ st with outG := g', myOut := true, outNo := ((r.2 : Int), r.1.mapNo) }, ?_, ?_, rfl, rfl⟩
      · rw [tUpdate, hc]
        simp [sB, ht]
        rw [← ht, e]
      · refine ⟨hgo, hg', h.myIn, ?_, hkF, ?_⟩
        · show true = decide (myid ∈ g')
          symm; rw [decide_eq_true_eq, hm]; exact Or.inl ht.symm
        · intro q hq hqt ho
          rcases opened_step ho with ho | ho
          · exact absurd ((h.gout.mem _).2 ⟨q, hq, hqt.trans ht.symm, ho⟩) hnot
          · rw [hc] at ho
            simp only [sB, Border.mk.injEq] at ho
            show ((r.2 : Int), r.1.mapNo) = _
            rw [ho.2.2.1, ho.2.2.2.1]
    · refine ⟨{ st with outG := g' }, ?_, ?_, rfl, rfl⟩
      · rw [tUpdate, hc]
        simp [sB, e, ht]
      · refine ⟨hgo, hg', h.myIn, ?_, hkF, ?_⟩
        · show st.myOut = decide (myid ∈ g')
          rw [h.myOut, decide_eq_decide, hm]
          constructor
          · exact Or.inr
          · rintro (e | e)
            · exact absurd e.symm ht
            · exact e
        · refine keepT ?_
          rintro ⟨q, _, hqt, e⟩; rw [hc] at e; simp only [sB, Border.mk.injEq] at e
          exact ht (e.2.1.symm.trans hqt)
  · -- end of output
    obtain ⟨g', e, hg', hm⟩ := ginv_end hT hs hnd hinT h.gout hr hc
    have hgo := ginv_other (c := c) h.gin (by rw [hc]; simp [eB])
    have hkT := keepT (by rintro ⟨q, _, _, e⟩; rw [hc] at e; simp [sB, eB] at e)
    have hkF := keepF (by rintro ⟨q, _, _, e⟩; rw [hc] at e; simp [sB, eB] at e)
    by_cases ht : r.1.task = myid
    · refine ⟨{ st with outG := g', myOut := false }, ?_, ⟨hgo, hg', h.myIn, ?_, hkF, hkT⟩, rfl, rfl⟩
      · rw [tUpdate, hc]
        simp [eB, ht]
        rw [← ht, e]
      · show false = decide (myid ∈ g')
        symm; rw [decide_eq_false_iff_not, hm]; exact fun x => x.1 ht.symm
    · refine ⟨{ st with outG := g' }, ?_, ⟨hgo, hg', h.myIn, ?_, hkF, hkT⟩, rfl, rfl⟩
      · rw [tUpdate, hc]
        simp [eB, e, ht]
      · show st.myOut = decide (myid ∈ g')
        rw [h.myOut, decide_eq_decide, hm]
        exact ⟨fun x => ⟨fun y => ht y.symm, x⟩, fun x => x.2⟩

end Laik
