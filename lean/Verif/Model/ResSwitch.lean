import Verif.Model.History
import Verif.Props.Reserve
/-!
# Switches of a 1d container with reservations
-/

namespace Laik.Rs

open Lay DE Mp NX Hs

variable {β : Type}

/-- A reservation after `laik_reservation_alloc` (src/data.c 997-1186) in all processes:
ranges of the partitionings added (`laik_reservation_add`, 914-937, in order, all of the
same group), result of the calculation in each process, byte address of each allocation
of each process. -/
structure Rsv where
  Qs : List (List TR)
  R : Nat → Res.Reserved
  ba : Nat → Nat → Nat

/-- Bytes from the begin of allocation `a` of process `p` used for range `B`
(`laik_allocateMap`, src/data.c 499-531, called in 1146): address and size. -/
def Rsv.blk (v : Rsv) (es p a : Nat) (B : Box) : Nat × Nat := (v.ba p a, (B.hi.x - B.lo.x).toNat * es)

/-- No byte in common. -/
def Off (x y : Nat × Nat) : Prop := x.1 + x.2 ≤ y.1 ∨ y.1 + y.2 ≤ x.1

/-- `base` and first index of `requiredRange` of mapping `no` for partitioning `k`, with
`base` set in `initEmbeddedMapping`, src/data.c 609-630; 1d, lexicographic layout. -/
def resFn (es : Nat) (r : Res.Reserved) (ba : Nat → Nat) (k : Nat) (no : Int) : Option (Nat × Int) :=
  if 0 ≤ no then (r.map .d1 k no.toNat).map fun m => (ba m.base + m.baseOff.toNat * es, m.required.lo.x) else none

/-- All processes called `laik_reservation_alloc` without failing an assert; map numbers
are those assigned when partitionings are made (C07); `malloc` gave different memory for
each allocation. -/
structure Rsv.OK (y : Sys β) (v : Rsv) : Prop where
  res : ∀ p < y.n, Laik.Reservation .d1 (v.Qs.map (ownOf · p)) (v.R p)
  nos : ∀ Q ∈ v.Qs, ∀ r ∈ Q, 0 ≤ r.mapNo ∧ r.mapNo.toNat < Res.mapCount (ownOf Q r.task)
  apart : ∀ p < y.n, ∀ a b A B, (v.R p).bases[a]? = some A → (v.R p).bases[b]? = some B → a ≠ b → Off (v.blk y.es p a A) (v.blk y.es p b B)

/-- The active mappings of a container (`activeMappings`): of no reservation
(`res == 0`), or those for partitioning `k` in a reservation. -/
inductive Where
  | plain (L : Nat → MList)
  | res (v : Rsv) (k : Nat)

/-- `base` and first required index of a mapping of process `p`. -/
def Where.fn (y : Sys β) (w : Where) (p : Nat) : Int → Option (Nat × Int) :=
  match w with
  | .plain L => mapFn (y.bt p) (L p)
  | .res v k => resFn y.es (v.R p) (v.ba p) k

/-- Container: ranges of the active partitioning, active mappings, memory. -/
structure RCont (β : Type) where
  F : List TR
  w : Where
  mem : Nat → Nat → β

/-- Address of index `i` in a mapping with a 1d layout, from `base` and first index. -/
def adr (es : Nat) (m : Option (Nat × Int)) (i : Int) : Nat := (m.map (fun m => m.1 + (i - m.2).toNat * es)).getD 0

/-- Element of process `p` at index `i` at the address got from `laik_get_map_1d`
(src/data.c 1462-1474): `base` of the mapping of the range with the index, plus distance
to the first index required. -/
def RCont.val (y : Sys β) (c : RCont β) (p : Nat) (i : Int) : List β :=
  match c.F.find? (fun r => decide (r.task = p ∧ r.has i)) with
  | none => []
  | some r => readMem (c.mem p) (adr y.es (c.w.fn y p r.mapNo) i) y.es

/-- Backend's view of a switch. -/
def setup (y : Sys β) (o : Nat) (w w' : Where) : MSetup β :=
  { n := y.n, es := y.es, redOp := o, red := y.red o, neutral := y.neutral o, useReduce := y.useReduce, fm := w.fn y, tm := w'.fn y }

/-- Memory of mappings without reservation and memory of a reservation are different. -/
def PlainOff (y : Sys β) (L : Nat → MList) (v : Rsv) : Prop :=
  ∀ p < y.n, ∀ m ∈ (L p).maps, ∀ x, Hs.blk (y.bt p) y.es m = some x → ∀ a A, (v.R p).bases[a]? = some A → Off x (v.blk y.es p a A)

/-- Memory of different reservations is different. -/
def RsvOff (y : Sys β) (v v' : Rsv) : Prop :=
  ∀ p < y.n, ∀ a A, (v.R p).bases[a]? = some A → ∀ b B, (v'.R p).bases[b]? = some B → Off (v.blk y.es p a A) (v'.blk y.es p b B)

/-- Mappings `w'` for a switch to ranges `T` and copies left out (`skip`).
`prepareMaps`, src/data.c 336-397, takes the mappings in the reservation in use if the
partitioning was added to it, else new ones.  `checkMapReuse`, 637-692, returns at once
if old or new mappings are in a reservation: no memory taken over, all copies done.
`copyMaps`, 548-601, does no copy at all if both are in the same reservation (558).
Memory is not taken back while in use: `malloc` and reservations give memory which is
not in use. -/
inductive Prep (y : Sys β) : Where → List TR → Where → (Nat → Int → Int → Bool) → Prop
  | plain {L tl fr : Nat → MList} {T : List TR} (h : ∀ p < y.n, NewMaps (y.bt p) y.es (L p) (ownOf T p) (tl p) (fr p)) :
      Prep y (.plain L) T (.plain tl) (fun p => skipFn (fr p))
  | stay {v : Rsv} {k l : Nat} {T : List TR} (h : v.OK y) (hl : v.Qs[l]? = some T) : Prep y (.res v k) T (.res v l) (fun _ _ _ => true)
  | into {L : Nat → MList} {v : Rsv} {l : Nat} {T : List TR} (h : v.OK y) (hl : v.Qs[l]? = some T) (hp : PlainOff y L v) :
      Prep y (.plain L) T (.res v l) (fun _ _ _ => false)
  | over {v v' : Rsv} {k l : Nat} {T : List TR} (h : v'.OK y) (hl : v'.Qs[l]? = some T) (hp : RsvOff y v v') :
      Prep y (.res v k) T (.res v' l) (fun _ _ _ => false)
  | out {v : Rsv} {k : Nat} {tl fr : Nat → MList} {T : List TR} (h : ∀ p < y.n, NewMaps (y.bt p) y.es noMaps (ownOf T p) (tl p) (fr p))
      (hp : PlainOff y tl v) : Prep y (.res v k) T (.plain tl) (fun _ _ _ => false)

/-- Mappings and actions for a switch (`laik_switchto_partitioning`, src/data.c
1294-1334; `laik_exec_transition`, 1189-1211; or `laik_exec_actions`, 1252-1290, with a
sequence prepared for the same mappings). -/
structure SwitchTo (y : Sys β) (w : Where) (F : List TR) (o : Nat) (T : List TR) (w' : Where) (prog : Nat → List (CBody β)) : Prop where
  acts : ∃ skip, Prep y w T w' skip ∧ MSwitch (setup y o w w') F T skip prog

/-- The same with asynchronous communication. -/
structure ASwitchTo (y : Sys β) (w : Where) (F : List TR) (o : Nat) (T : List TR) (w' : Where) (prog : Nat → List (AAct β)) : Prop where
  acts : ∃ skip, Prep y w T w' skip ∧ ASwitch (setup y o w w') F T skip prog
  safe : AsyncSafe (setup y o w w') F T

/-- What may happen to a container, see `Laik.Hs.Step`. -/
inductive Step (y : Sys β) : RCont β → RCont β → Prop
  | write (c : RCont β) (mem : Nat → Nat → β) : Step y c { c with mem := mem }
  | switch {c : RCont β} {o : Nat} {T : List TR} {w' : Where} {prog : Nat → List (CBody β)} {k : Nat} {st : XState (Nat → β) β}
      (h : SwitchTo y c.w c.F o T w' prog) (hx : XSteps y.n (y.cf o) k ((setup y o c.w w').start prog c.mem) st) (hd : XDone st) :
      Step y c ⟨T, w', st.mem⟩
  | aswitch {c : RCont β} {o : Nat} {T : List TR} {w' : Where} {prog : Nat → List (AAct β)} {k : Nat} {st : AState β}
      (h : ASwitchTo y c.w c.F o T w' prog) (hx : ASteps y.n (y.cf o) k (AState.start prog c.mem) st) (hd : ADone st) :
      Step y c ⟨T, w', st.mem⟩
  | drop {c : RCont β} {T : List TR} {w' : Where} {skip : Nat → Int → Int → Bool} (h : Prep y c.w T w' skip)
      (mem : Nat → Nat → β) : Step y c ⟨T, w', mem⟩

/-- Containers which can be reached: at the begin there are no mappings. -/
inductive Reach (y : Sys β) : RCont β → Prop
  | first (F : List TR) (w : Where) (skip : Nat → Int → Int → Bool) (mem : Nat → Nat → β) (h : Prep y (.plain fun _ => noMaps) F w skip) :
      Reach y ⟨F, w, mem⟩
  | step {c c' : RCont β} (h : Reach y c) (hs : Step y c c') : Reach y c'

/-- Ranges with a common index in one process have the same tag. -/
def TagsAgree (F T : List TR) : Prop := ∀ r ∈ F, ∀ r' ∈ T, r.task = r'.task → ∀ i, r.has i → r'.has i → r.tag = r'.tag

/-- In a switch within a reservation, tags agree. -/
def Agree (w w' : Where) (F T : List TR) : Prop := ∀ v k l, w = .res v k → w' = .res v l → TagsAgree F T

/-! ### Lemmas -/

/-- Mappings in order. -/
def Where.Good (y : Sys β) (F : List TR) : Where → Prop
  | .plain L => ∀ p < y.n, Placed (y.bt p) y.es (L p) ∧ Covers (L p) (ownOf F p)
  | .res v k => v.OK y ∧ v.Qs[k]? = some F

theorem Prep.good {y : Sys β} {w w' : Where} {F T : List TR} {skip : Nat → Int → Int → Bool} (h : Prep y w T w' skip) (hg : w.Good y F) :
    w'.Good y T := by
  cases h with
  | plain h => exact fun p hp => (h p hp).placed (hg p hp).1
  | stay h hl => exact ⟨h, hl⟩
  | into h hl hp => exact ⟨h, hl⟩
  | over h hl hp => exact ⟨h, hl⟩
  | out h hp => exact fun p hp => (h p hp).placed (noMaps_placed _ _)

theorem Reach.good {y : Sys β} {c : RCont β} (h : Reach y c) : c.w.Good y c.F := by
  induction h with
  | first F w skip mem h => exact h.good (F := []) (fun p _ => ⟨noMaps_placed _ _, fun r hr => nomatch hr⟩)
  | step h hs ih =>
    cases hs with
    | write mem => exact ih
    | switch h hx hd => obtain ⟨skip, hp, _⟩ := h.acts; exact hp.good ih
    | aswitch h hx hd => obtain ⟨skip, hp, _⟩ := h.acts; exact hp.good ih
    | drop h mem => exact h.good ih

/-- Offsets in a 1d layout. -/
theorem cell_d1 {m : Res.RMap} {i o : Int} {a : Nat} (h : m.cell .d1 ⟨i, 0, 0⟩ = some (a, o)) : a = m.base ∧ o = i - m.allocated.lo.x ∧ 0 ≤ o := by
  unfold Res.RMap.cell at h
  split at h
  · cases h
  · rename_i l hl
    obtain ⟨h1, _, _, h4⟩ := newLayoutLex_spec hl
    obtain ⟨e, he, hn⟩ := h4 0 m.allocated rfl
    unfold offsetLex at h
    rw [he] at h
    simp only [h1] at h
    have hb := newLexEntry_box hn
    have hoff : e.off .d1 ⟨i, 0, 0⟩ = i - e.box.lo.x := by simp [LexEntry.off, Dims.toNat]
    rw [hoff] at h
    split at h
    · rename_i hc
      simp only [Option.map_some, Option.some.injEq, Prod.mk.injEq] at h
      rw [hb] at h hc
      omega
    · cases h

theorem cell_x {m : Res.RMap} (p : Idx) : m.cell .d1 p = m.cell .d1 ⟨p.x, 0, 0⟩ := by
  unfold Res.RMap.cell
  split
  · rfl
  · rename_i l hl
    obtain ⟨h1, _, _, _⟩ := newLayoutLex_spec hl
    unfold offsetLex
    rw [h1]
    simp [LexEntry.off, Dims.toNat]

section
variable {y : Sys β} {v : Rsv}

/-- Mapping and addresses of a range in a reservation. -/
theorem res_cell (hv : v.OK y) {k : Nat} {Q : List TR} (hQ : v.Qs[k]? = some Q) {r : TR} (hr : r ∈ Q) (hp : r.task < y.n) :
    ∃ (m : Res.RMap) (b : Nat) (lo : Int), (v.R r.task).map .d1 k r.mapNo.toNat = some m ∧ (v.R r.task).bases[m.base]? = some m.allocated ∧
      resFn y.es (v.R r.task) (v.ba r.task) k r.mapNo = some (b, lo) ∧ lo ≤ r.box.lo.x ∧
      Laik.InRMap (v.Qs.map (ownOf · r.task)) k r.mapNo.toNat r ∧
      ∀ i, r.has i → b + (i - lo).toNat * y.es = v.ba r.task m.base + (i - m.allocated.lo.x).toNat * y.es ∧
        m.allocated.lo.x ≤ i ∧ i < m.allocated.hi.x := by
  obtain ⟨n1, n2⟩ := hv.nos Q (List.mem_of_getElem? hQ) r hr
  have hin : Laik.InRMap (v.Qs.map (ownOf · r.task)) k r.mapNo.toNat r :=
    ⟨ownOf Q r.task, by rw [List.getElem?_map, hQ]; rfl, n2, mem_own hr, by omega⟩
  obtain ⟨m, own, b, h1, h2, h3, h4, h5, h6, h7, h8, h9⟩ := Laik.map_spec (hv.res _ hp) hin
  subst h4
  rw [cell_x] at h9
  obtain ⟨_, e2, e3⟩ := cell_d1 h9
  have hlo := (h5.ge r.box (List.mem_map.2 ⟨r, h8, rfl⟩)) 0 (by decide)
  have hlo1 : m.required.lo.x ≤ r.box.lo.x := hlo.1
  have hlo2 : r.box.hi.x ≤ m.required.hi.x := hlo.2
  refine ⟨m, _, _, h1, h3, by unfold resFn; rw [if_pos n1, h1]; rfl, hlo1, hin, fun i hi => ?_⟩
  have hi1 := hi.1
  have hi2 := hi.2
  have hm := h6 ⟨i, 0, 0⟩ (fun j hj => by
    have : j = 0 := by simp only [Dims.toNat] at hj; omega
    subst this
    exact ⟨show m.required.lo.x ≤ i by omega, show i < m.required.hi.x by omega⟩) 0 (by decide)
  have hm1 : m.allocated.lo.x ≤ i := hm.1
  have hm2 : i < m.allocated.hi.x := hm.2
  refine ⟨?_, hm1, hm2⟩
  show v.ba r.task m.base + m.baseOff.toNat * y.es + (i - m.required.lo.x).toNat * y.es = _
  rw [Nat.add_assoc, ← Nat.add_mul]
  congr 2
  have e2 : m.baseOff = m.required.lo.x - m.allocated.lo.x := e2
  omega

end

/-- Elements of two mapping lists: at the same place for the same index, or apart. -/
def SepFn (es : Nat) (f g : Int → Option (Nat × Int)) (A B : List TR) : Prop :=
  ∀ r ∈ A, ∀ r' ∈ B, ∀ i j, r.has i → r'.has j → (i = j ∧ adr es (f r.mapNo) i = adr es (g r'.mapNo) j) ∨
    adr es (f r.mapNo) i + es ≤ adr es (g r'.mapNo) j ∨ adr es (g r'.mapNo) j + es ≤ adr es (f r.mapNo) i

theorem SepFn.symm {es : Nat} {f g : Int → Option (Nat × Int)} {A B : List TR} (h : SepFn es f g A B) : SepFn es g f B A := by
  intro r hr r' hr' i j hi hj
  rcases h r' hr' r hr j i hj hi with h | h | h
  · exact Or.inl ⟨h.1.symm, h.2.symm⟩
  · exact Or.inr (Or.inr h)
  · exact Or.inr (Or.inl h)

theorem elem_in (es : Nat) {x n : Int} {b : Nat} {z : Nat × Nat} (hz : z = (b, n.toNat * es)) (h0 : 0 ≤ x) (h1 : x < n) :
    z.1 ≤ b + x.toNat * es ∧ b + x.toNat * es + es ≤ z.1 + z.2 := by
  subst hz
  have : (x.toNat + 1) * es ≤ n.toNat * es := Nat.mul_le_mul_right es (by omega)
  rw [Nat.succ_mul] at this
  simp only
  omega

section
variable {y : Sys β}

theorem plain_cell {L : Nat → MList} {F : List TR} {r : TR} (hp : Placed (y.bt r.task) y.es (L r.task))
    (hc : Covers (L r.task) (ownOf F r.task)) (hr : r ∈ F) :
    ∃ (k : Nat) (m : DMap) (b : Nat), (L r.task).maps[k]? = some m ∧ (r.mapNo = (k : Int)) ∧
      (Where.plain L).fn y r.task r.mapNo = some (b, m.required.lo.x) ∧ m.required.lo.x ≤ r.box.lo.x ∧
      ∀ i, r.has i → adr y.es ((Where.plain L).fn y r.task r.mapNo) i = cellAt (y.bt r.task) y.es m i ∧ m.allocated.lo.x ≤ i ∧ i < m.allocated.hi.x := by
  obtain ⟨k, m, b, g1, g2, g3, g4, g5⟩ := Good_cell (y := y) hp hc hr rfl
  refine ⟨k, m, b, g2, g1, g3, g4, fun i hi => ?_⟩
  obtain ⟨q1, q2, q3, _⟩ := g5 i hi
  refine ⟨?_, q2, q3⟩
  show adr y.es (mapFn (y.bt r.task) (L r.task) r.mapNo) i = _
  rw [g3]
  exact q1

theorem res_adr {v : Rsv} (hv : v.OK y) {k : Nat} {Q : List TR} (hQ : v.Qs[k]? = some Q) {r : TR} (hr : r ∈ Q) (hp : r.task < y.n) :
    ∃ m : Res.RMap, (v.R r.task).map .d1 k r.mapNo.toNat = some m ∧ (v.R r.task).bases[m.base]? = some m.allocated ∧
      Laik.InRMap (v.Qs.map (ownOf · r.task)) k r.mapNo.toNat r ∧
      ∀ i, r.has i → adr y.es ((Where.res v k).fn y r.task r.mapNo) i = v.ba r.task m.base + (i - m.allocated.lo.x).toNat * y.es ∧
        m.allocated.lo.x ≤ i ∧ i < m.allocated.hi.x := by
  obtain ⟨m, b, lo, h1, h2, h3, h4, h5, h6⟩ := res_cell hv hQ hr hp
  refine ⟨m, h1, h2, h5, fun i hi => ?_⟩
  obtain ⟨q1, q2⟩ := h6 i hi
  refine ⟨?_, q2⟩
  show adr y.es (resFn y.es (v.R r.task) (v.ba r.task) k r.mapNo) i = _
  rw [h3]
  exact q1

theorem cellAt_blk {bt : Int → Nat} {es : Nat} {m : DMap} (hs : m.start ≠ none) {i : Int} (h1 : m.allocated.lo.x ≤ i) (h2 : i < m.allocated.hi.x) :
    ∃ x, Hs.blk bt es m = some x ∧ x.1 ≤ cellAt bt es m i ∧ cellAt bt es m i + es ≤ x.1 + x.2 := by
  cases e : m.start with
  | none => exact absurd e hs
  | some s =>
    refine ⟨_, by unfold Hs.blk; rw [e]; rfl, ?_⟩
    have := elem_in es (x := i - m.allocated.lo.x) (n := m.allocated.hi.x - m.allocated.lo.x) (b := bt s) rfl (by omega) (by omega)
    unfold cellAt
    rw [e]
    exact this

theorem sep_plain_res {L : Nat → MList} {v : Rsv} {k : Nat} {F Q : List TR} (hL : (Where.plain L).Good y F) (hv : (Where.res v k).Good y Q)
    (ho : PlainOff y L v) {p : Nat} (hp : p < y.n) :
    SepFn y.es ((Where.plain L).fn y p) ((Where.res v k).fn y p) (ownOf F p) (ownOf Q p) := by
  intro r h0 r' h0' i j hi hj
  obtain ⟨hr, e⟩ := List.mem_filter.1 h0
  obtain ⟨hr', e'⟩ := List.mem_filter.1 h0'
  simp only [decide_eq_true_eq] at e e'
  subst e
  obtain ⟨g1, g2⟩ := hL _ hp
  obtain ⟨k1, m, b, a1, _, _, _, a5⟩ := plain_cell g1 g2 hr
  obtain ⟨m', b1, b2, b3, b4⟩ := res_adr hv.1 hv.2 hr' (by rw [e']; exact hp)
  rw [e'] at b1 b2 b3 b4
  obtain ⟨q1, q2, q3⟩ := a5 i hi
  obtain ⟨t1, t2, t3⟩ := b4 j hj
  have hm := List.mem_of_getElem? a1
  obtain ⟨x, x1, x2, x3⟩ := cellAt_blk (bt := y.bt r.task) (es := y.es) (g1.has m hm) q2 q3
  have hoff := ho _ hp m hm x x1 _ _ b2
  obtain ⟨z1, z2⟩ := elem_in y.es (x := j - m'.allocated.lo.x) (n := m'.allocated.hi.x - m'.allocated.lo.x) (b := v.ba r.task m'.base)
    (z := v.blk y.es r.task m'.base m'.allocated) rfl (by omega) (by omega)
  rw [q1, t1]
  right
  rcases hoff with h | h <;> omega

theorem sep_res_res {v v' : Rsv} {k l : Nat} {F Q : List TR} (hv : (Where.res v k).Good y F) (hv' : (Where.res v' l).Good y Q)
    (ho : RsvOff y v v') {p : Nat} (hp : p < y.n) :
    SepFn y.es ((Where.res v k).fn y p) ((Where.res v' l).fn y p) (ownOf F p) (ownOf Q p) := by
  intro r h0 r' h0' i j hi hj
  obtain ⟨hr, e⟩ := List.mem_filter.1 h0
  obtain ⟨hr', e'⟩ := List.mem_filter.1 h0'
  simp only [decide_eq_true_eq] at e e'
  subst e
  obtain ⟨m, a1, a2, a3, a4⟩ := res_adr hv.1 hv.2 hr hp
  obtain ⟨m', b1, b2, b3, b4⟩ := res_adr hv'.1 hv'.2 hr' (by rw [e']; exact hp)
  rw [e'] at b1 b2 b3 b4
  obtain ⟨q1, q2, q3⟩ := a4 i hi
  obtain ⟨t1, t2, t3⟩ := b4 j hj
  have hoff := ho _ hp _ _ a2 _ _ b2
  obtain ⟨x2, x3⟩ := elem_in y.es (x := i - m.allocated.lo.x) (n := m.allocated.hi.x - m.allocated.lo.x) (b := v.ba r.task m.base)
    (z := v.blk y.es r.task m.base m.allocated) rfl (by omega) (by omega)
  obtain ⟨z1, z2⟩ := elem_in y.es (x := j - m'.allocated.lo.x) (n := m'.allocated.hi.x - m'.allocated.lo.x) (b := v'.ba r.task m'.base)
    (z := v'.blk y.es r.task m'.base m'.allocated) rfl (by omega) (by omega)
  rw [q1, t1]
  right
  rcases hoff with h | h <;> omega

theorem sep_stay {v : Rsv} {k l : Nat} {F Q : List TR} (hv : (Where.res v k).Good y F) (hv' : (Where.res v l).Good y Q)
    {p : Nat} (hp : p < y.n) :
    SepFn y.es ((Where.res v k).fn y p) ((Where.res v l).fn y p) (ownOf F p) (ownOf Q p) := by
  intro r h0 r' h0' i j hi hj
  obtain ⟨hr, e⟩ := List.mem_filter.1 h0
  obtain ⟨hr', e'⟩ := List.mem_filter.1 h0'
  simp only [decide_eq_true_eq] at e e'
  subst e
  obtain ⟨m, a1, a2, a3, a4⟩ := res_adr hv.1 hv.2 hr hp
  obtain ⟨m', b1, b2, b3, b4⟩ := res_adr hv'.1 hv'.2 hr' (by rw [e']; exact hp)
  rw [e'] at b1 b2 b3 b4
  obtain ⟨q1, q2, q3⟩ := a4 i hi
  obtain ⟨t1, t2, t3⟩ := b4 j hj
  rw [q1, t1]
  by_cases eb : m.base = m'.base
  · rw [eb] at a2
    have ea : m.allocated = m'.allocated := Option.some.inj (a2.symm.trans b2)
    rw [ea] at q2 q3 ⊢
    rw [eb]
    rcases Int.lt_trichotomy i j with h | h | h
    · right; left
      have := Nat.mul_le_mul_right y.es (show (i - m'.allocated.lo.x).toNat + 1 ≤ (j - m'.allocated.lo.x).toNat by omega)
      rw [Nat.succ_mul] at this
      omega
    · left; exact ⟨h, by rw [h]⟩
    · right; right
      have := Nat.mul_le_mul_right y.es (show (j - m'.allocated.lo.x).toNat + 1 ≤ (i - m'.allocated.lo.x).toNat by omega)
      rw [Nat.succ_mul] at this
      omega
  · have hoff := hv.1.apart _ hp _ _ _ _ a2 b2 eb
    obtain ⟨x2, x3⟩ := elem_in y.es (x := i - m.allocated.lo.x) (n := m.allocated.hi.x - m.allocated.lo.x) (b := v.ba r.task m.base)
      (z := v.blk y.es r.task m.base m.allocated) rfl (by omega) (by omega)
    obtain ⟨z1, z2⟩ := elem_in y.es (x := j - m'.allocated.lo.x) (n := m'.allocated.hi.x - m'.allocated.lo.x) (b := v.ba r.task m'.base)
      (z := v.blk y.es r.task m'.base m'.allocated) rfl (by omega) (by omega)
    right
    rcases hoff with h | h <;> omega

/-- Same tag, same address. -/
theorem stay_same {v : Rsv} {k l : Nat} {F Q : List TR} (hv : (Where.res v k).Good y F) (hv' : (Where.res v l).Good y Q)
    {r r' : TR} (hr : r ∈ F) (hr' : r' ∈ Q) (ht : r.task = r'.task) (hp : r.task < y.n) (htag : r.tag = r'.tag) {i : Int} (hi : r.has i) (hi' : r'.has i) :
    adr y.es ((Where.res v k).fn y r.task r.mapNo) i = adr y.es ((Where.res v l).fn y r.task r'.mapNo) i := by
  obtain ⟨m, a1, a2, a3, a4⟩ := res_adr hv.1 hv.2 hr hp
  obtain ⟨m', b1, b2, b3, b4⟩ := res_adr hv'.1 hv'.2 hr' (by rw [← ht]; exact hp)
  rw [← ht] at b1 b2 b3 b4
  obtain ⟨x, x', e1, e2, e3, e4⟩ := Laik.base_iff (hv.1.res _ hp) a3 b3
  rw [a1] at e1
  rw [b1] at e2
  cases e1
  cases e2
  have eb := e3.2 htag
  rw [(a4 i hi).1, (b4 i hi').1, eb, e4 eb]

theorem sep_plain_plain {L : Nat → MList} {F : List TR} (hL : (Where.plain L).Good y F) {p : Nat} (hp : p < y.n) :
    SepFn y.es ((Where.plain L).fn y p) ((Where.plain L).fn y p) (ownOf F p) (ownOf F p) := by
  intro r h0 r' h0' i j hi hj
  obtain ⟨hr, e⟩ := List.mem_filter.1 h0
  obtain ⟨hr', e'⟩ := List.mem_filter.1 h0'
  simp only [decide_eq_true_eq] at e e'
  subst e
  obtain ⟨g1, g2⟩ := hL _ hp
  obtain ⟨_, m, _, a1, _, _, _, a5⟩ := plain_cell g1 g2 hr
  obtain ⟨_, m', _, b1, _, _, _, b5⟩ := plain_cell (r := r') (by rw [e']; exact g1) (by rw [e']; exact g2) hr'
  rw [e'] at b1 b5
  obtain ⟨q1, q2, q3⟩ := a5 i hi
  obtain ⟨t1, t2, t3⟩ := b5 j hj
  rw [q1, t1]
  exact g1.sep a1 b1 q2 q3 t2 t3

theorem good_self {w : Where} {F : List TR} (h : w.Good y F) {p : Nat} (hp : p < y.n) : SepFn y.es (w.fn y p) (w.fn y p) (ownOf F p) (ownOf F p) := by
  cases w with
  | plain L => exact sep_plain_plain h hp
  | res v k => exact sep_stay h h hp

/-- Old and new elements. -/
theorem Prep.sep {w w' : Where} {F T : List TR} {skip : Nat → Int → Int → Bool} (h : Prep y w T w' skip) (hg : w.Good y F) {p : Nat} (hp : p < y.n) :
    SepFn y.es (w.fn y p) (w'.fn y p) (ownOf F p) (ownOf T p) := by
  have hg' := h.good hg
  cases h with
  | plain h =>
    intro r h0 r' h0' i j hi hj
    obtain ⟨hr, e⟩ := List.mem_filter.1 h0
    obtain ⟨hr', e'⟩ := List.mem_filter.1 h0'
    simp only [decide_eq_true_eq] at e e'
    subst e
    obtain ⟨g1, g2⟩ := hg _ hp
    obtain ⟨g1', g2'⟩ := hg' _ hp
    obtain ⟨_, m, _, a1, _, _, _, a5⟩ := plain_cell g1 g2 hr
    obtain ⟨_, m', _, b1, _, _, _, b5⟩ := plain_cell (r := r') (by rw [e']; exact g1') (by rw [e']; exact g2') hr'
    rw [e'] at b1 b5
    obtain ⟨q1, q2, q3⟩ := a5 i hi
    obtain ⟨t1, t2, t3⟩ := b5 j hj
    rw [q1, t1]
    exact (h _ hp).sep g1 a1 b1 q2 q3 t2 t3
  | stay h hl => exact sep_stay hg hg' hp
  | into h hl ho => exact sep_plain_res hg hg' ho hp
  | over h hl ho => exact sep_res_res hg hg' ho hp
  | out h ho => exact (sep_plain_res hg' hg ho hp).symm

theorem good_map {w : Where} {F : List TR} (h : w.Good y F) {r : TR} (hr : r ∈ F) (hp : r.task < y.n) :
    ∃ m, w.fn y r.task r.mapNo = some m ∧ m.2 ≤ r.box.lo.x := by
  cases w with
  | plain L =>
    obtain ⟨g1, g2⟩ := h _ hp
    obtain ⟨_, m, b, _, _, a3, a4, _⟩ := plain_cell g1 g2 hr
    exact ⟨_, a3, a4⟩
  | res v k =>
    obtain ⟨m, b, lo, _, _, h3, h4, _⟩ := res_cell h.1 h.2 hr hp
    exact ⟨_, h3, h4⟩

theorem maps_ok {w w' : Where} {F T : List TR} {o : Nat} (h : w.Good y F) (h' : w'.Good y T) {p : Nat} (hp : p < y.n) : MapsOK (setup y o w w') F T p where
  src r hr ht := by subst ht; exact good_map h hr hp
  dst r hr ht := by subst ht; exact good_map h' hr hp

/-- Element found by the application. -/
theorem val_eq {w : Where} {F : List TR} {mem : Nat → Nat → β} (hF : GoodList y.n F) {r : TR} (hr : r ∈ F) {i : Int} (hi : r.has i) :
    (RCont.mk F w mem).val y r.task i = readMem (mem r.task) (adr y.es (w.fn y r.task r.mapNo) i) y.es := by
  obtain ⟨r', h1, h2, h3, h4, _, h6⟩ := find_range hF hr hi
  unfold RCont.val
  simp only
  rw [h2]
  simp only
  rw [h6]

/-- What is assumed about memory in C51 and C52. -/
theorem mem_ok (hy : SysOK y) {c : RCont β} (hg : c.w.Good y c.F) {o : Nat} {T : List TR} {w' : Where} {skip : Nat → Int → Int → Bool}
    (hT : TransOK y.n c.F T) (hp : Prep y c.w T w' skip) (ha : Agree c.w w' c.F T) : MMemOK (setup y o c.w w') c.F T skip c.mem (c.val y) where
  sep p := by
    have hg' := hp.good hg
    intro i j a b hi hj
    show (i = j ∧ a = b) ∨ a + y.es ≤ b ∨ b + y.es ≤ a
    have own : ∀ {L : List TR} {r : TR}, r ∈ L → r.task = p → r ∈ ownOf L p := fun h e => List.mem_filter.2 ⟨h, by simp [e]⟩
    rcases hi with ⟨r, hr, ht, hi, rfl⟩ | ⟨r, hr, ht, hi, rfl⟩ <;> rcases hj with ⟨r', hr', ht', hj, rfl⟩ | ⟨r', hr', ht', hj, rfl⟩
    · have ht : r.task = p := ht
      have hlt : p < y.n := by rw [← ht]; exact hT.goodF.task r hr
      exact good_self hg hlt r (own hr ht) r' (own hr' ht') i j hi hj
    · have ht : r.task = p := ht
      have hlt : p < y.n := by rw [← ht]; exact hT.goodF.task r hr
      exact hp.sep hg hlt r (own hr ht) r' (own hr' ht') i j hi hj
    · have ht : r.task = p := ht
      have hlt : p < y.n := by rw [← ht]; exact hT.goodT.task r hr
      exact (hp.sep hg hlt).symm r (own hr ht) r' (own hr' ht') i j hi hj
    · have ht : r.task = p := ht
      have hlt : p < y.n := by rw [← ht]; exact hT.goodT.task r hr
      exact good_self hg' hlt r (own hr ht) r' (own hr' ht') i j hi hj
  skip r hr r' hr' ht hs i hi hi' := by
    have hlt : r.task < y.n := hT.goodF.task r hr
    have hg' := hp.good hg
    obtain ⟨F, w, mem⟩ := c
    show adr y.es (w.fn y r.task r.mapNo) i = adr y.es (w'.fn y r.task r'.mapNo) i
    cases hp with
    | plain h =>
      rename_i L tl fr
      obtain ⟨g1, g2⟩ := hg _ hlt
      obtain ⟨g1', g2'⟩ := hg' _ hlt
      obtain ⟨k, m, _, a1, a2, _, _, a5⟩ := plain_cell g1 g2 hr
      obtain ⟨k', m', _, b1, b2, _, _, b5⟩ := plain_cell (r := r') (by rw [← ht]; exact g1') (by rw [← ht]; exact g2') hr'
      rw [← ht] at b1 b5
      rw [(a5 i hi).1, (b5 i hi').1]
      have hs : skipFn (fr r.task) r.mapNo r'.mapNo = true := hs
      rw [a2, b2] at hs
      obtain ⟨x, x1, x2⟩ := skipFn_true hs
      obtain ⟨_, _, _, _, _, h6⟩ := (h _ hlt).kind g1
      obtain ⟨m0, b0, z1, z2, z3, z4⟩ := h6 k x k' x1 x2
      rw [a1] at z1
      cases z1
      rw [b1] at z2
      cases z2
      exact (cellAt_congr z3 z4 i).symm
    | stay h hl => exact stay_same hg hg' hr hr' ht hlt (ha _ _ _ rfl rfl r hr r' hr' ht i hi hi') hi hi'
    | into h hl ho => cases hs
    | over h hl ho => cases hs
    | out h ho => cases hs
  val r hr i hi := val_eq hT.goodF hr hi
  red := hy.red o
  neutral := hy.neutral o

end

end Laik.Rs
