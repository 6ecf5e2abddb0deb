import Verif.Model.Placement
import Verif.Model.MpiAsyncSwitch
/-!
# Histories of a 1d container: accesses of the application and switches
-/

namespace Laik.Hs

open Lay DE Mp NX

variable {β : Type}

/-- A group of processes using a 1d container with lexicographic layout over the MPI
backend: number of processes, element size, function and neutral element of each
reduction, `mpi_reduce` (src/backend-mpi.c 73), byte addresses of element addresses in
each process, collectives of MPI for each reduction. -/
structure Sys (β : Type) where
  n : Nat
  es : Nat
  red : Nat → List β → List β → List β
  neutral : Nat → List β
  useReduce : Bool
  bt : Nat → Int → Nat
  cf : Nat → Nat → (Nat → List β) → Nat → List β

/-- A container: task ranges of the active partitioning (`activePartitioning`), mappings
of each process (`activeMappings`), memory of each process. -/
structure Cont (β : Type) where
  F : List TR
  L : Nat → MList
  mem : Nat → Nat → β

/-- Ranges of process `p`. -/
def ownOf (F : List TR) (p : Nat) : List TR := F.filter fun r => decide (r.task = p)

/-- Backend's view of a switch with reduction `o`. -/
def Sys.setup (y : Sys β) (o : Nat) (L tl : Nat → MList) : MSetup β :=
  { n := y.n, es := y.es, redOp := o, red := y.red o, neutral := y.neutral o, useReduce := y.useReduce,
    fm := fun p => mapFn (y.bt p) (L p), tm := fun p => mapFn (y.bt p) (tl p) }

/-- Reductions work on elements; collectives of MPI combine. -/
structure SysOK (y : Sys β) : Prop where
  red : ∀ o, ∀ a b : List β, a.length = y.es → b.length = y.es → (y.red o a b).length = y.es
  neutral : ∀ o, (y.neutral o).length = y.es
  coll : ∀ o L tl, CollOK (y.setup o L tl) (y.cf o)

/-- All processes prepare mappings and actions for a switch to ranges `T`
(`laik_switchto_partitioning`, src/data.c 1294-1334, `doTransition`, 778-868, with
data flow `LAIK_DF_Preserve` within one group). -/
structure SwitchTo (y : Sys β) (c : Cont β) (o : Nat) (T : List TR) (tl fr : Nat → MList) (prog : Nat → List (CBody β)) : Prop where
  maps : ∀ p < y.n, NewMaps (y.bt p) y.es (c.L p) (ownOf T p) (tl p) (fr p)
  acts : MSwitch (y.setup o c.L tl) c.F T (fun p => skipFn (fr p)) prog

/-- The same with asynchronous communication (`mpi_async`). -/
structure ASwitchTo (y : Sys β) (c : Cont β) (o : Nat) (T : List TR) (tl fr : Nat → MList) (prog : Nat → List (AAct β)) : Prop where
  maps : ∀ p < y.n, NewMaps (y.bt p) y.es (c.L p) (ownOf T p) (tl p) (fr p)
  acts : ASwitch (y.setup o c.L tl) c.F T (fun p => skipFn (fr p)) prog
  safe : AsyncSafe (y.setup o c.L tl) c.F T

/-- Mapping list without mappings. -/
def noMaps : MList := ⟨⟨.d1, 0, []⟩, []⟩

/-- What may happen to a container: processes change memory; a complete execution of a
switch, after which the new mappings are the active ones and the memory of old ones
which was not taken over is free again (src/data.c 860-866); a switch which does not
keep data (`LAIK_DF_None`, `LAIK_DF_Init`), with any content of memory afterwards. -/
inductive Step (y : Sys β) : Cont β → Cont β → Prop
  | write (c : Cont β) (mem : Nat → Nat → β) : Step y c { c with mem := mem }
  | switch {c : Cont β} {o : Nat} {T : List TR} {tl fr : Nat → MList} {prog : Nat → List (CBody β)} {k : Nat} {st : XState (Nat → β) β}
      (h : SwitchTo y c o T tl fr prog) (hx : XSteps y.n (y.cf o) k ((y.setup o c.L tl).start prog c.mem) st) (hd : XDone st) :
      Step y c ⟨T, tl, st.mem⟩
  | aswitch {c : Cont β} {o : Nat} {T : List TR} {tl fr : Nat → MList} {prog : Nat → List (AAct β)} {k : Nat} {st : AState β}
      (h : ASwitchTo y c o T tl fr prog) (hx : ASteps y.n (y.cf o) k (AState.start prog c.mem) st) (hd : ADone st) :
      Step y c ⟨T, tl, st.mem⟩
  | drop {c : Cont β} {T : List TR} {tl fr : Nat → MList} (h : ∀ p < y.n, NewMaps (y.bt p) y.es (c.L p) (ownOf T p) (tl p) (fr p))
      (mem : Nat → Nat → β) : Step y c ⟨T, tl, mem⟩

/-- Containers which can be reached: the first partitioning is set on a container
without mappings, memory has any content. -/
inductive Reach (y : Sys β) : Cont β → Prop
  | first (F : List TR) (tl fr : Nat → MList) (mem : Nat → Nat → β) (h : ∀ p < y.n, NewMaps (y.bt p) y.es noMaps (ownOf F p) (tl p) (fr p)) :
      Reach y ⟨F, tl, mem⟩
  | step {c c' : Cont β} (h : Reach y c) (hs : Step y c c') : Reach y c'

/-- Element which the application of process `p` finds at index `i` with the address
got from `laik_get_map_1d`. -/
def Cont.val (y : Sys β) (c : Cont β) (p : Nat) (i : Int) : List β :=
  match c.F.find? (fun r => decide (r.task = p ∧ r.has i)) with
  | none => []
  | some r => readMem (c.mem p) (y.bt p ((localAddr (c.L p) r.mapNo.toNat ⟨i, 0, 0⟩).getD 0)) y.es

/-- Mappings of all processes are in order. -/
def Cont.Good (y : Sys β) (c : Cont β) : Prop := ∀ p < y.n, Placed (y.bt p) y.es (c.L p) ∧ Covers (c.L p) (ownOf c.F p)

theorem noMaps_placed (bt : Int → Nat) (es : Nat) : Placed bt es noMaps where
  dims := rfl
  ok := ⟨fun e he => (by cases he), rfl, fun m hm => (by cases hm), fun i m e hm => (by cases hm)⟩
  has m hm := by cases hm
  free m hm := by cases hm
  lin m hm := by cases hm
  apart i j a b ha := by cases ha

theorem Reach.good {y : Sys β} {c : Cont β} (h : Reach y c) : c.Good y := by
  induction h with
  | first F tl fr mem h => exact fun p hp => (h p hp).placed (noMaps_placed _ _)
  | step h hs ih =>
    cases hs with
    | write mem => exact ih
    | switch h hx hd => exact fun p hp => (h.maps p hp).placed (ih p hp).1
    | aswitch h hx hd => exact fun p hp => (h.maps p hp).placed (ih p hp).1
    | drop h mem => exact fun p hp => (h p hp).placed (ih p hp).1

section
variable {y : Sys β} {c : Cont β} {o : Nat} {T : List TR} {tl fr : Nat → MList}

theorem mem_own {F : List TR} {r : TR} (h : r ∈ F) : r ∈ ownOf F r.task := List.mem_filter.2 ⟨h, by simp⟩

theorem find_range {n : Nat} {F : List TR} (hF : GoodList n F) {r : TR} (hr : r ∈ F) {i : Int} (hi : r.has i) :
    ∃ r' ∈ F, F.find? (fun x => decide (x.task = r.task ∧ x.has i)) = some r' ∧ r'.task = r.task ∧ r'.has i ∧ (noAt F r.task i).2 = r'.mapNo ∧
      r'.mapNo = r.mapNo := by
  cases h : F.find? (fun x => decide (x.task = r.task ∧ x.has i)) with
  | none =>
    have := List.find?_eq_none.1 h r hr
    simp [hi] at this
  | some r' =>
    have h1 := List.mem_of_find?_eq_some h
    have h2 := List.find?_some h
    rw [decide_eq_true_eq] at h2
    have e1 := noAt_mapNo hF hr hi
    have e2 := noAt_mapNo hF h1 h2.2
    rw [h2.1, e1] at e2
    exact ⟨r', h1, rfl, h2.1, h2.2, by rw [e1, e2], e2.symm⟩

/-- Address for the application. -/
theorem app_addr {bt : Int → Nat} {es : Nat} {ml : MList} (hp : Placed bt es ml) {k : Nat} {m : DMap} (hm : ml.maps[k]? = some m) {i : Int}
    (h1 : m.required.lo.x ≤ i) (h2 : i < m.required.hi.x) :
    bt ((localAddr ml k ⟨i, 0, 0⟩).getD 0) = cellAt bt es m i := by
  have hmem := List.mem_of_getElem? hm
  have hs := hp.has m hmem
  obtain ⟨w1, w2⟩ := within_alloc hp.dims hp.ok hm hs
  obtain ⟨e, he⟩ := entry_of hp.ok hm
  rcases hp.ok.maps k m e hm he with ⟨h, _⟩ | ⟨s, h⟩
  · exact absurd h hs
  · have hb := h.base
    have hoff : e.off ml.lay.dims m.required.lo = m.required.lo.x - m.allocated.lo.x := by
      rw [hp.dims, ← h.box]
      simp [LexEntry.off, Dims.toNat]
    rw [hoff] at hb
    have ha : localAddr ml k ⟨i, 0, 0⟩ = some (s + ((i - m.allocated.lo.x).toNat : Int)) := by
      unfold localAddr
      rw [hm]
      simp only
      rw [hb]
      simp only
      rw [hp.dims]
      simp only [subIndex, Option.some.injEq]
      omega
    rw [ha, Option.getD_some, hp.lin m hmem s h.start _ (by omega)]
    unfold cellAt
    rw [h.start, Option.getD_some]

theorem Good_cell {p : Nat} {ml : MList} {F : List TR} (hp : Placed (y.bt p) y.es ml) (hc : Covers ml (ownOf F p)) {r : TR} (hr : r ∈ F) (ht : r.task = p) :
    ∃ (k : Nat) (m : DMap) (b : Nat), r.mapNo = (k : Int) ∧ ml.maps[k]? = some m ∧ mapFn (y.bt p) ml r.mapNo = some (b, m.required.lo.x) ∧
      m.required.lo.x ≤ r.box.lo.x ∧ ∀ i, r.has i → b + (i - m.required.lo.x).toNat * y.es = cellAt (y.bt p) y.es m i ∧
        m.allocated.lo.x ≤ i ∧ i < m.allocated.hi.x ∧ m.required.lo.x ≤ i ∧ i < m.required.hi.x := by
  subst ht
  obtain ⟨k, m, h1, h2, h3, h4⟩ := hc r (mem_own hr)
  obtain ⟨b, b1, b2⟩ := hp.mapFn h2
  refine ⟨k, m, b, h1, h2, by rw [h1]; exact b1, h3, fun i hi => ?_⟩
  obtain ⟨w1, w2⟩ := within_alloc hp.dims hp.ok h2 (hp.has m (List.mem_of_getElem? h2))
  have hi1 := hi.1
  have hi2 := hi.2
  exact ⟨b2 i (by omega), by omega, by omega, by omega, by omega⟩

/-- Value for the application and cell used by the library. -/
theorem val_eq {n : Nat} {F : List TR} {L : Nat → MList} {mem : Nat → Nat → β} (hF : GoodList n F) {r : TR} (hr : r ∈ F) {i : Int} (hi : r.has i)
    (hp : Placed (y.bt r.task) y.es (L r.task)) (hc : Covers (L r.task) (ownOf F r.task)) :
    ∃ (k : Nat) (m : DMap), r.mapNo = (k : Int) ∧ (L r.task).maps[k]? = some m ∧
      (Cont.mk F L mem).val y r.task i = readMem (mem r.task) (cellAt (y.bt r.task) y.es m i) y.es := by
  obtain ⟨r', h1, h2, h3, h4, _, h6⟩ := find_range hF hr hi
  obtain ⟨k, m, b, g1, g2, _, _, g5⟩ := Good_cell hp hc hr rfl
  refine ⟨k, m, g1, g2, ?_⟩
  unfold Cont.val
  simp only
  rw [h2]
  simp only
  rw [h6, g1, Int.toNat_natCast]
  obtain ⟨_, _, _, q1, q2⟩ := g5 i hi
  rw [app_addr hp g2 q1 q2]

theorem maps_ok (hg : c.Good y) (hn : ∀ p < y.n, NewMaps (y.bt p) y.es (c.L p) (ownOf T p) (tl p) (fr p)) {p : Nat}
    (hp : p < y.n) : MapsOK (y.setup o c.L tl) c.F T p where
  src r hr ht := by
    obtain ⟨k, m, b, _, _, h3, h4, _⟩ := Good_cell (hg p hp).1 (hg p hp).2 hr ht
    exact ⟨_, h3, h4⟩
  dst r hr ht := by
    obtain ⟨q1, q2⟩ := (hn p hp).placed (hg p hp).1
    obtain ⟨k, m, b, _, _, h3, h4, _⟩ := Good_cell q1 q2 hr ht
    exact ⟨_, h3, h4⟩

/-- What is assumed about memory in C51 and C52 holds. -/
theorem mem_ok (hy : SysOK y) (hg : c.Good y) (hT : TransOK y.n c.F T)
    (hn : ∀ p < y.n, NewMaps (y.bt p) y.es (c.L p) (ownOf T p) (tl p) (fr p)) :
    MMemOK (y.setup o c.L tl) c.F T (fun p => skipFn (fr p)) c.mem (c.val y) where
  sep p := by
    have src : ∀ i a, (∃ r ∈ c.F, r.task = p ∧ r.has i ∧ a = ((y.setup o c.L tl).ctx p []).cells.src r.mapNo i) → p < y.n ∧
        ∃ (k : Nat) (m : DMap), (c.L p).maps[k]? = some m ∧ a = cellAt (y.bt p) y.es m i ∧ m.allocated.lo.x ≤ i ∧ i < m.allocated.hi.x := by
      rintro i a ⟨r, hr, ht, hi, rfl⟩
      have hp : p < y.n := ht ▸ hT.goodF.task r hr
      obtain ⟨k, m, b, g1, g2, g3, _, g5⟩ := Good_cell (hg p hp).1 (hg p hp).2 hr ht
      obtain ⟨q1, q2, q3, _⟩ := g5 i hi
      refine ⟨hp, k, m, g2, ?_, q2, q3⟩
      show ((mapFn (y.bt p) (c.L p) r.mapNo).map (fun m => m.1 + (i - m.2).toNat * y.es)).getD 0 = _
      rw [g3, Option.map_some, Option.getD_some]
      exact q1
    have dst : ∀ i a, (∃ r ∈ T, r.task = p ∧ r.has i ∧ a = ((y.setup o c.L tl).ctx p []).cells.dst r.mapNo i) → p < y.n ∧
        ∃ (k : Nat) (m : DMap), (tl p).maps[k]? = some m ∧ a = cellAt (y.bt p) y.es m i ∧ m.allocated.lo.x ≤ i ∧ i < m.allocated.hi.x := by
      rintro i a ⟨r, hr, ht, hi, rfl⟩
      have hp : p < y.n := ht ▸ hT.goodT.task r hr
      obtain ⟨p1, p2⟩ := (hn p hp).placed (hg p hp).1
      obtain ⟨k, m, b, g1, g2, g3, _, g5⟩ := Good_cell p1 p2 hr ht
      obtain ⟨q1, q2, q3, _⟩ := g5 i hi
      refine ⟨hp, k, m, g2, ?_, q2, q3⟩
      show ((mapFn (y.bt p) (tl p) r.mapNo).map (fun m => m.1 + (i - m.2).toNat * y.es)).getD 0 = _
      rw [g3, Option.map_some, Option.getD_some]
      exact q1
    intro i j a b ha hb
    show (i = j ∧ a = b) ∨ a + y.es ≤ b ∨ b + y.es ≤ a
    rcases ha with ha | ha
    · obtain ⟨hp, k, m, a1, rfl, a3, a4⟩ := src i a ha
      rcases hb with hb | hb
      · obtain ⟨_, k', m', b1, rfl, b3, b4⟩ := src j b hb
        exact (hg p hp).1.sep a1 b1 a3 a4 b3 b4
      · obtain ⟨_, k', m', b1, rfl, b3, b4⟩ := dst j b hb
        exact (hn p hp).sep (hg p hp).1 a1 b1 a3 a4 b3 b4
    · obtain ⟨hp, k, m, a1, rfl, a3, a4⟩ := dst i a ha
      rcases hb with hb | hb
      · obtain ⟨_, k', m', b1, rfl, b3, b4⟩ := src j b hb
        rcases (hn p hp).sep (hg p hp).1 b1 a1 b3 b4 a3 a4 with h | h | h
        · exact Or.inl ⟨h.1.symm, h.2.symm⟩
        · exact Or.inr (Or.inr h)
        · exact Or.inr (Or.inl h)
      · obtain ⟨_, k', m', b1, rfl, b3, b4⟩ := dst j b hb
        exact ((hn p hp).placed (hg p hp).1).1.sep a1 b1 a3 a4 b3 b4
  skip r hr r' hr' ht hs i hi hi' := by
    have hp : r.task < y.n := hT.goodF.task r hr
    obtain ⟨k, m, b, g1, g2, g3, _, g5⟩ := Good_cell (hg _ hp).1 (hg _ hp).2 hr rfl
    obtain ⟨p1, p2⟩ := (hn _ hp).placed (hg _ hp).1
    obtain ⟨k', m', b', g1', g2', g3', _, g5'⟩ := Good_cell p1 p2 hr' ht.symm
    have hs : skipFn (fr r.task) r.mapNo r'.mapNo = true := hs
    rw [g1, g1'] at hs
    obtain ⟨x, x1, x2⟩ := skipFn_true hs
    obtain ⟨_, _, _, _, _, h6⟩ := (hn _ hp).kind (hg _ hp).1
    obtain ⟨m0, b0, z1, z2, z3, z4⟩ := h6 k x k' x1 x2
    rw [g2] at z1
    cases z1
    rw [g2'] at z2
    cases z2
    show ((mapFn (y.bt r.task) (c.L r.task) r.mapNo).map (fun m => m.1 + (i - m.2).toNat * y.es)).getD 0 =
      ((mapFn (y.bt r.task) (tl r.task) r'.mapNo).map (fun m => m.1 + (i - m.2).toNat * y.es)).getD 0
    rw [g3, g3', Option.map_some, Option.getD_some, Option.map_some, Option.getD_some]
    show b + (i - m.required.lo.x).toNat * y.es = b' + (i - m'.required.lo.x).toNat * y.es
    rw [(g5 i hi).1, (g5' i hi').1, cellAt_congr z3 z4]
  val r hr i hi := by
    have hp : r.task < y.n := hT.goodF.task r hr
    obtain ⟨k, m, g1, g2, g3⟩ := val_eq (L := c.L) (mem := c.mem) hT.goodF hr hi (hg _ hp).1 (hg _ hp).2
    refine g3.trans ?_
    obtain ⟨k', m', b, q1, q2, q3, _, q5⟩ := Good_cell (hg _ hp).1 (hg _ hp).2 hr rfl
    have e : k' = k := by rw [q1] at g1; exact Int.ofNat_inj.1 g1
    subst e
    rw [g2] at q2
    cases q2
    show readMem _ _ _ = readMem _ (((mapFn (y.bt r.task) (c.L r.task) r.mapNo).map (fun m => m.1 + (i - m.2).toNat * y.es)).getD 0) _
    rw [q3, Option.map_some, Option.getD_some]
    show _ = readMem _ (b + (i - m.required.lo.x).toNat * y.es) _
    rw [(q5 i hi).1]
    rfl
  red := hy.red o
  neutral := hy.neutral o

/-- Values after a switch as found by the application. -/
theorem val_after (hg : c.Good y) (hT : TransOK y.n c.F T) (hn : ∀ p < y.n, NewMaps (y.bt p) y.es (c.L p) (ownOf T p) (tl p) (fr p))
    {mem : Nat → Nat → β} {r : TR} (hr : r ∈ T) {i : Int} (hi : r.has i) :
    (Cont.mk T tl mem).val y r.task i = readMem (mem r.task) (((y.setup o c.L tl).ctx r.task []).cells.dst r.mapNo i) y.es := by
  have hp : r.task < y.n := hT.goodT.task r hr
  obtain ⟨p1, p2⟩ := (hn _ hp).placed (hg _ hp).1
  obtain ⟨k, m, g1, g2, g3⟩ := val_eq (L := tl) (mem := mem) hT.goodT hr hi p1 p2
  refine g3.trans ?_
  obtain ⟨k', m', b, q1, q2, q3, _, q5⟩ := Good_cell p1 p2 hr rfl
  have e : k' = k := by rw [q1] at g1; exact Int.ofNat_inj.1 g1
  subst e
  rw [g2] at q2
  cases q2
  show readMem _ _ _ = readMem _ (((mapFn (y.bt r.task) (tl r.task) r.mapNo).map (fun m => m.1 + (i - m.2).toNat * y.es)).getD 0) _
  rw [q3, Option.map_some, Option.getD_some]
  show _ = readMem _ (b + (i - m.required.lo.x).toNat * y.es) _
  rw [(q5 i hi).1]

end

end Laik.Hs
