import Verif.Model.History
import Verif.Props.MpiSwitch
import Verif.Props.MpiAsync
import Verif.Props.Reuse
/-!
# C60: contents of a container over its whole life
-/

namespace Laik.Hs

open Lay DE Mp NX

variable {β : Type} {y : Sys β} {c : Cont β} {o : Nat} {T : List TR} {tl fr : Nat → MList}

/-- What a switch has to do at an index with owners `ins` before: `f q` is the element of
`q` before, `v` the element of an owner after the switch. -/
structure Moved (red : List β → List β → List β) (neutral : List β) (ins : List Nat) (f : Nat → List β) (v : List β) : Prop where
  one : ∀ q, ins = [q] → v = f q
  none : ins = [] → v = neutral
  many : 2 ≤ ins.length → Comb red (ins.map f) v

/-- C60: at any time in the life of a container, an execution of a switch (blocking
communication) is never stuck, its length is bounded, and it can be continued to its
end.  Nothing is assumed about the placement of mappings: it is what `prepareMaps`,
`checkMapReuse` and `malloc` made of it.  Missing: reservations, provided memory, other
groups, layouts and dimensions. -/
theorem C60_completes_partial (hy : SysOK y) (hr : Reach y c) {prog : Nat → List (CBody β)} (h : SwitchTo y c o T tl fr prog) {k : Nat}
    {st : XState (Nat → β) β} (hx : XSteps y.n (y.cf o) k ((y.setup o c.L tl).start prog c.mem) st) :
    (XDone st ∨ ∃ st', XRStep y.n (y.cf o) st st') ∧ k ≤ ((List.range y.n).map (fun p => (prog p).length)).sum ∧
    ∃ k' st', k ≤ k' ∧ XSteps y.n (y.cf o) k' ((y.setup o c.L tl).start prog c.mem) st' ∧ XDone st' := by
  have hm := mem_ok (o := o) hy hr.good h.acts.trans h.maps
  have hcf := hy.coll o c.L tl
  obtain ⟨h1, h2⟩ := C51_switch_completes_partial h.acts hm hcf hx
  exact ⟨h1, h2, C51_switch_reaches_end h.acts hm hcf hx⟩

/-- C60: after any history, a switch gives each owner of an index in the target the
element of the only owner before, the neutral element if there was none, or the
combination of the elements of exactly all owners, where elements are what applications
find at the addresses given by `laik_get_map_1d`.  Missing as above. -/
theorem C60_delivers_partial (hy : SysOK y) (hr : Reach y c) {prog : Nat → List (CBody β)} (h : SwitchTo y c o T tl fr prog) {k : Nat}
    {st : XState (Nat → β) β} (hx : XSteps y.n (y.cf o) k ((y.setup o c.L tl).start prog c.mem) st) (hd : XDone st) {p : Nat} {i : Int}
    (hp : p ∈ ownersAt T y.n i) :
    Moved (y.red o) (y.neutral o) (ownersAt c.F y.n i) (fun q => c.val y q i) ((Cont.mk T tl st.mem).val y p i) := by
  have hm := mem_ok (o := o) hy hr.good h.acts.trans h.maps
  obtain ⟨r, hr', rfl, hi⟩ := (mem_ownersAt h.acts.trans.goodT.task i p).1 hp
  obtain ⟨h1, h2, h3⟩ := C51_switch_delivers_partial h.acts hm (hy.coll o c.L tl) hx hd hr' hi
    (val_after (o := o) hr.good h.acts.trans h.maps (mem := st.mem) hr' hi)
  exact ⟨h1, h2, h3⟩

/-- C60 for asynchronous communication. -/
theorem C60_async_partial (hy : SysOK y) (hr : Reach y c) {prog : Nat → List (AAct β)} (h : ASwitchTo y c o T tl fr prog) {k : Nat}
    {st : AState β} (hx : ASteps y.n (y.cf o) k (AState.start prog c.mem) st) :
    ((ADone st ∨ ∃ st', ARStep y.n (y.cf o) st st') ∧ k ≤ ((List.range y.n).map (fun p => 3 * (prog p).length)).sum ∧
      ∃ k' st', k ≤ k' ∧ ASteps y.n (y.cf o) k' (AState.start prog c.mem) st' ∧ ADone st') ∧
    (ADone st → ∀ p i, p ∈ ownersAt T y.n i →
      Moved (y.red o) (y.neutral o) (ownersAt c.F y.n i) (fun q => c.val y q i) ((Cont.mk T tl st.mem).val y p i)) := by
  have hm := mem_ok (o := o) hy hr.good h.acts.trans h.maps
  have hcf := hy.coll o c.L tl
  obtain ⟨h1, h2⟩ := C52_switch_completes_partial h.acts hm hcf h.safe hx
  refine ⟨⟨h1, h2, C52_switch_reaches_end h.acts hm hcf h.safe hx⟩, ?_⟩
  intro hd p i hp
  obtain ⟨r, hr', rfl, hi⟩ := (mem_ownersAt h.acts.trans.goodT.task i p).1 hp
  obtain ⟨h1, h2, h3⟩ := C52_switch_delivers_partial h.acts hm hcf h.safe hx hd hr' hi
    (val_after (o := o) hr.good h.acts.trans h.maps (mem := st.mem) hr' hi)
  exact ⟨h1, h2, h3⟩

/-- C60: when mappings were prepared, the actions of a switch can be made if and only if
the transition has a reduction where needed, and none with more than 8 inputs which has no
output or more than 32 inputs. -/
theorem C60_switch_exists_iff (hr : Reach y c) (hT : TransOK y.n c.F T) (hn : ∀ p < y.n, NewMaps (y.bt p) y.es (c.L p) (ownOf T p) (tl p) (fr p)) :
    (∃ prog, SwitchTo y c o T tl fr prog) ↔ ∀ i, ownersAt c.F y.n i ≠ [] ∨ ownersAt T y.n i ≠ [] →
      (if (ownersAt c.F y.n i).length = 1 then o < 100 else o ≠ 0) ∧
      (¬ (y.useReduce = true ∧ (ownersAt c.F y.n i).length = y.n ∧ ((ownersAt T y.n i).length = y.n ∨ (ownersAt T y.n i).length = 1)) →
        8 < (ownersAt c.F y.n i).length → ownersAt T y.n i ≠ [] ∧ (ownersAt c.F y.n i).length ≤ 32) := by
  refine Iff.trans ?_ (C51_switch_exists_iff (s := y.setup o c.L tl) hT (fun p hp => maps_ok hr.good hn hp) (fun p => skipFn (fr p)))
  exact ⟨fun ⟨prog, h⟩ => ⟨prog, h.acts⟩, fun ⟨prog, h⟩ => ⟨prog, hn, h⟩⟩

/-- The only owner of an index. -/
def Cont.Owner (y : Sys β) (c : Cont β) (i : Int) (q : Nat) : Prop := ownersAt c.F y.n i = [q]

/-- Histories after which index `i` has its element still: it always has one owner,
applications do not change it, and switches keep data. -/
inductive Kept (y : Sys β) (i : Int) : Cont β → Cont β → Prop
  | refl (c : Cont β) : Kept y i c c
  | write {c c' : Cont β} (h : Kept y i c c') (mem : Nat → Nat → β)
      (hw : ∀ q, c'.Owner y i q → ({ c' with mem := mem } : Cont β).val y q i = c'.val y q i) : Kept y i c { c' with mem := mem }
  | switch {c c' : Cont β} (h : Kept y i c c') {o : Nat} {T : List TR} {tl fr : Nat → MList} {prog : Nat → List (CBody β)} {k : Nat}
      {st : XState (Nat → β) β} (hs : SwitchTo y c' o T tl fr prog)
      (hx : XSteps y.n (y.cf o) k ((y.setup o c'.L tl).start prog c'.mem) st) (hd : XDone st) (hq : ∃ q, (Cont.mk T tl st.mem).Owner y i q) :
      Kept y i c ⟨T, tl, st.mem⟩
  | aswitch {c c' : Cont β} (h : Kept y i c c') {o : Nat} {T : List TR} {tl fr : Nat → MList} {prog : Nat → List (AAct β)} {k : Nat}
      {st : AState β} (hs : ASwitchTo y c' o T tl fr prog)
      (hx : ASteps y.n (y.cf o) k (AState.start prog c'.mem) st) (hd : ADone st) (hq : ∃ q, (Cont.mk T tl st.mem).Owner y i q) :
      Kept y i c ⟨T, tl, st.mem⟩

/-- C60: an element survives any number of switches and changes of other elements: the
owner at the end has the element which the owner at the begin had. -/
theorem C60_kept (hy : SysOK y) {c c' : Cont β} (hr : Reach y c) {i : Int} (h : Kept y i c c') {q q' : Nat} (hq : c.Owner y i q)
    (hq' : c'.Owner y i q') : c'.val y q' i = c.val y q i := by
  suffices H : Reach y c' ∧ ∃ q', c'.Owner y i q' ∧ c'.val y q' i = c.val y q i by
    obtain ⟨_, x, h1, h2⟩ := H
    have : x = q' := by
      unfold Cont.Owner at h1 hq'
      rw [h1] at hq'
      exact (List.cons.inj hq').1
    rw [← this]
    exact h2
  clear hq' q'
  induction h with
  | refl => exact ⟨hr, q, hq, rfl⟩
  | write h mem hw ih =>
    obtain ⟨h1, x, h2, h3⟩ := ih
    exact ⟨h1.step (.write _ mem), x, h2, (hw x h2).trans h3⟩
  | switch h hs hx hd hq ih =>
    obtain ⟨h1, x, h2, h3⟩ := ih
    obtain ⟨z, hz⟩ := hq
    refine ⟨h1.step (.switch hs hx hd), z, hz, ?_⟩
    refine ((C60_delivers_partial hy h1 hs hx hd ?_).one x h2).trans h3
    rw [show ownersAt _ y.n i = [z] from hz]; simp
  | aswitch h hs hx hd hq ih =>
    obtain ⟨h1, x, h2, h3⟩ := ih
    obtain ⟨z, hz⟩ := hq
    refine ⟨h1.step (.aswitch hs hx hd), z, hz, ?_⟩
    refine (((C60_async_partial hy h1 hs hx).2 hd z i ?_).one x h2).trans h3
    rw [show ownersAt _ y.n i = [z] from hz]; simp

/-- C60: no two elements a process owns share memory, at any time. -/
theorem C60_elements_apart (hr : Reach y c) (hF : GoodList y.n c.F) {r r' : TR} (h : r ∈ c.F) (h' : r' ∈ c.F) (ht : r.task = r'.task) {i j : Int}
    (hi : r.has i) (hj : r'.has j) {a b : Int} (ha : localAddr (c.L r.task) r.mapNo.toNat ⟨i, 0, 0⟩ = some a)
    (hb : localAddr (c.L r'.task) r'.mapNo.toNat ⟨j, 0, 0⟩ = some b) (hij : i ≠ j) :
    y.bt r.task a + y.es ≤ y.bt r'.task b ∨ y.bt r'.task b + y.es ≤ y.bt r.task a := by
  have hp := hF.task r h
  obtain ⟨g1, g2⟩ := hr.good _ hp
  obtain ⟨k, m, _, e1, e2, _, _, e5⟩ := Good_cell g1 g2 h rfl
  obtain ⟨k', m', _, e1', e2', _, _, e5'⟩ := Good_cell g1 g2 h' ht.symm
  rw [← ht] at hb ⊢
  rw [e1, Int.toNat_natCast] at ha
  rw [e1', Int.toNat_natCast] at hb
  obtain ⟨_, a1, a2, a3, a4⟩ := e5 i hi
  obtain ⟨_, b1, b2, b3, b4⟩ := e5' j hj
  have ka := app_addr g1 e2 a3 a4
  have kb := app_addr g1 e2' b3 b4
  rw [ha, Option.getD_some] at ka
  rw [hb, Option.getD_some] at kb
  rw [ka, kb]
  rcases g1.sep e2 e2' a1 a2 b1 b2 with h | h
  · exact absurd h.1 hij
  · exact h

theorem newLexEntries_some : ∀ {rs : List Box}, (∀ b ∈ rs, b.lo.x < b.hi.x) → ∃ es, newLexEntries .d1 rs = some es := by
  intro rs
  induction rs with
  | nil => intro _; exact ⟨[], rfl⟩
  | cons b rs ih =>
    intro h
    obtain ⟨es, he⟩ := ih (fun x hx => h x (List.mem_cons_of_mem _ hx))
    have hb := h b List.mem_cons_self
    have : newLexEntry .d1 b = some ⟨b, (b.hi.x - b.lo.x).toNat, 1, 0, 0⟩ := by
      unfold newLexEntry Box.size
      rw [if_neg (by omega)]
      simp [Dims.toNat, hb]
    exact ⟨_, by rw [newLexEntries, this, he]⟩

theorem allocFrom_some {a : Nat → Int} : ∀ (n i : Nat) (ml : MList), ml.OK → i + n = ml.maps.length → ∃ ml', allocFrom a n i ml = some ml' := by
  intro n
  induction n with
  | zero => intro i ml _ _; exact ⟨ml, rfl⟩
  | succ n ih =>
    intro i ml h hl
    have hlt : i < ml.maps.length := by omega
    have hm := List.getElem?_eq_getElem hlt
    have : ∃ ml1, allocMap ml i (a i) = some ml1 := by
      unfold allocMap
      rw [hm]
      simp only
      split
      · exact ⟨_, rfl⟩
      · rename_i hb
        rw [if_neg]
        · exact ⟨_, rfl⟩
        · have := start_none_iff h hm
          simp only [Option.not_isSome_iff_eq_none] at hb
          rw [this.2 hb]
          simp
    obtain ⟨ml1, h1⟩ := this
    obtain ⟨ml2, h2⟩ := ih (i + 1) ml1 (allocMap_ok h h1) (by rw [(allocMap_get h1).2.1]; omega)
    exact ⟨ml2, by rw [allocFrom, h1, Option.bind_some, h2]⟩

/-- C60: preparing the mappings of a process never fails an assert, at any time and for
any answers of `malloc`: `T` is any list of ranges with map numbers as assigned when
partitionings are made (C07, C34). -/
theorem C60_prepares (hr : Reach y c) {p : Nat} (hp : p < y.n) {own : List TR} (hown : ∀ r ∈ own, r.tag ≠ -1 ∧ r.box.lo.x < r.box.hi.x) :
    ∃ rs to0 to1 fr, coveringRanges .d1 (assignMaps (-1) (-1) own) = some rs ∧ prepMaps .d1 rs = some to0 ∧
      checkMapReuse to0 (c.L p) = some (to1, fr) ∧ ∀ a, ∃ tl, allocAll a to1 = some tl := by
  have hg := (hr.good p hp).1
  obtain ⟨rs, h1⟩ := C34_covering_defined .d1 own (fun r h => (hown r h).1)
  have hrs : ∀ b ∈ rs, b.lo.x < b.hi.x := by
    intro b hb
    obtain ⟨k, hk⟩ := List.mem_iff_getElem?.1 hb
    obtain ⟨⟨t, ht, hk'⟩, _⟩ := (coveringRanges_spec h1).2 k b hk
    obtain ⟨k2, b2, e1, e2, e3⟩ := (coveringRanges_spec h1).1 t ht
    have : k2 = k := by rw [hk'] at e1; exact (Int.ofNat_inj.1 e1).symm
    subst this
    rw [hk] at e2
    cases e2
    have e3 := e3 0 (by decide)
    have e4 : b.lo.x ≤ t.box.lo.x := e3.1
    have e5 : t.box.hi.x ≤ b.hi.x := e3.2
    have : ∃ u ∈ own, u.box = t.box := by
      have aux : ∀ (l : List TR) (g h : Int) (t : TR), t ∈ assignMaps g h l → ∃ u ∈ l, u.box = t.box := by
        intro l
        induction l with
        | nil => intro g h t ht; cases ht
        | cons x l ih =>
          intro g h t ht
          unfold assignMaps at ht
          split at ht
          · rcases List.mem_cons.1 ht with rfl | ht
            · exact ⟨x, List.mem_cons_self, rfl⟩
            · obtain ⟨u, hu, e⟩ := ih _ _ t ht
              exact ⟨u, List.mem_cons_of_mem _ hu, e⟩
          · rcases List.mem_cons.1 ht with rfl | ht
            · exact ⟨x, List.mem_cons_self, rfl⟩
            · obtain ⟨u, hu, e⟩ := ih _ _ t ht
              exact ⟨u, List.mem_cons_of_mem _ hu, e⟩
      exact aux _ _ _ _ ht
    obtain ⟨u, hu, e⟩ := this
    have := (hown u hu).2
    rw [e] at this
    omega
  obtain ⟨es, h2⟩ := newLexEntries_some hrs
  have h3 : ∃ to0, prepMaps .d1 rs = some to0 := by
    unfold prepMaps newLayoutLex
    rw [h2]
    exact ⟨_, rfl⟩
  obtain ⟨to0, h3⟩ := h3
  obtain ⟨q1, q2, q3⟩ := prepMaps_ok h3
  have hnone : ∀ m ∈ to0.maps, m.start = none := by
    intro m hm
    rw [q3] at hm
    obtain ⟨b, _, rfl⟩ := List.mem_map.1 hm
    rfl
  obtain ⟨to1, fr, h4, _⟩ := C33_same_cells q1 hg.ok (by rw [hg.dims, q2]) hnone
  obtain ⟨q4, _⟩ := checkMapReuse_ok q1 hg.ok (by rw [hg.dims, q2]) hnone h4
  exact ⟨rs, to0, to1, fr, h1, h3, h4, fun a => allocFrom_some _ _ _ q4 (by omega)⟩

/-! ### A case meeting the hypotheses -/

/-- Two processes, elements are numbers, addresses are as `malloc` returned them. -/
def exSys : Sys Nat :=
  { n := 2, es := 1, red := fun _ a b => [a.getD 0 0 + b.getD 0 0], neutral := fun _ => [0], useReduce := true, bt := fun _ a => a.toNat,
    cf := fun _ => collRef (numSetup 2 true (· + ·)) }

theorem exSys_ok : SysOK exSys where
  red _ _ _ _ _ := rfl
  neutral _ := rfl
  coll o L tl := collRef_ok (exSys.setup o L tl) (show 0 < 2 by decide) (show 0 < 1 by decide) (fun _ _ _ _ => rfl)

/-- Indexes 0 to 7 are divided at `k`. -/
def exPart (k : Int) : List TR := [⟨0, 0, iv 0 k, 0⟩, ⟨1, 0, iv k 8, 0⟩]

/-- Mapping list with one mapping of `[lo, hi)` in an allocation of `[alo, ahi)` at
address `s`. -/
def exMap (s lo hi alo ahi : Int) (mark : Option Nat) : MList :=
  ⟨⟨.d1, ahi - alo, [⟨iv alo ahi, (ahi - alo).toNat, 1, 0, 0⟩]⟩, [⟨some s, some (s + lo - alo), iv lo hi, iv alo ahi, mark⟩]⟩

theorem fresh_one {bt : Int → Nat} {es : Nat} {ml to1 tl : MList} {b : DMap} (h : tl.maps = [b]) (hl : (∃ a, to1.maps = [a] ∧ a.start ≠ none) ∨
    (Linear bt es b ∧ ∀ c ∈ ml.maps, Apart (blk bt es b) (blk bt es c))) : Fresh bt es ml to1 tl where
  lin i a b' h1 h2 h3 := by
    rw [h] at h3
    rcases hl with ⟨a', e, he⟩ | hl
    · rw [e] at h1
      rcases i with _ | i
      · cases h1; exact absurd h2 he
      · cases h1
    · rcases i with _ | i
      · cases h3; exact hl.1
      · cases h3
  old i a b' h1 h2 h3 := by
    rw [h] at h3
    rcases hl with ⟨a', e, he⟩ | hl
    · rw [e] at h1
      rcases i with _ | i
      · cases h1; exact absurd h2 he
      · cases h1
    · rcases i with _ | i
      · cases h3; exact hl.2
      · cases h3
  new i j a b' c h1 h2 h3 h4 hne := by
    rw [h] at h3 h4
    rcases i with _ | i
    · rcases j with _ | j
      · exact absurd rfl hne
      · cases h4
    · cases h3

/-- Mapping lists of the processes: first partitioning, divided at 2, divided at 4
again. -/
def exL1 (p : Nat) : MList := if p = 0 then exMap 10 0 4 0 4 none else exMap 10 4 8 4 8 none
def exL2 (p : Nat) : MList := if p = 0 then exMap 10 0 2 0 4 none else exMap 20 2 8 2 8 none
def exL3 (p : Nat) : MList := if p = 0 then exMap 10 0 4 0 4 none else exMap 20 4 8 2 8 none

theorem lin_toNat {m : DMap} {s : Int} (h : m.start = some s) (hs : 0 ≤ s) : Linear (fun a => a.toNat) 1 m := by
  intro s' hs' k _
  rw [h] at hs'
  cases hs'
  show (s + k).toNat = s.toNat + k * 1
  omega

theorem exNew1 : ∀ p < exSys.n, NewMaps (exSys.bt p) exSys.es noMaps (ownOf (exPart 4) p) (exL1 p) noMaps := by
  intro p hp
  have hp : p < 2 := hp
  match p, hp with
  | 0, _ =>
    exact .mk [iv 0 4] ⟨⟨.d1, 4, [⟨iv 0 4, 4, 1, 0, 0⟩]⟩, [⟨none, none, iv 0 4, iv 0 4, none⟩]⟩ _ (fun _ => 10) (by decide) (by decide) rfl (by decide)
      (fresh_one rfl (Or.inr ⟨lin_toNat rfl (by decide), fun c hc => by cases hc⟩))
  | 1, _ =>
    exact .mk [iv 4 8] ⟨⟨.d1, 4, [⟨iv 4 8, 4, 1, 0, 0⟩]⟩, [⟨none, none, iv 4 8, iv 4 8, none⟩]⟩ _ (fun _ => 10) (by decide) (by decide) rfl (by decide)
      (fresh_one rfl (Or.inr ⟨lin_toNat rfl (by decide), fun c hc => by cases hc⟩))

/-- Process 0 stays in its allocation, process 1 needs another one. -/
theorem exNew2 : ∀ p < exSys.n, NewMaps (exSys.bt p) exSys.es (exL1 p) (ownOf (exPart 2) p) (exL2 p)
    (if p = 0 then exMap 10 0 4 0 4 (some 0) else exMap 10 4 8 4 8 none) := by
  intro p hp
  have hp : p < 2 := hp
  match p, hp with
  | 0, _ =>
    exact .mk [iv 0 2] ⟨⟨.d1, 2, [⟨iv 0 2, 2, 1, 0, 0⟩]⟩, [⟨none, none, iv 0 2, iv 0 2, none⟩]⟩ (exMap 10 0 2 0 4 none) (fun _ => 20)
      (by decide) (by decide) (by decide) (by decide) (fresh_one rfl (Or.inl ⟨_, rfl, by decide⟩))
  | 1, _ =>
    refine .mk [iv 2 8] ⟨⟨.d1, 6, [⟨iv 2 8, 6, 1, 0, 0⟩]⟩, [⟨none, none, iv 2 8, iv 2 8, none⟩]⟩
      ⟨⟨.d1, 6, [⟨iv 2 8, 6, 1, 0, 0⟩]⟩, [⟨none, none, iv 2 8, iv 2 8, none⟩]⟩ (fun _ => 20)
      (by decide) (by decide) (by decide) (by decide) (fresh_one rfl (Or.inr ⟨lin_toNat rfl (by decide), fun c hc => ?_⟩))
    rcases List.mem_singleton.1 hc with rfl
    intro x z hx hz
    cases hx
    cases hz
    decide

/-- Both stay in their allocations. -/
theorem exNew3 : ∀ p < exSys.n, NewMaps (exSys.bt p) exSys.es (exL2 p) (ownOf (exPart 4) p) (exL3 p)
    (if p = 0 then exMap 10 0 2 0 4 (some 0) else exMap 20 2 8 2 8 (some 0)) := by
  intro p hp
  have hp : p < 2 := hp
  match p, hp with
  | 0, _ =>
    exact .mk [iv 0 4] ⟨⟨.d1, 4, [⟨iv 0 4, 4, 1, 0, 0⟩]⟩, [⟨none, none, iv 0 4, iv 0 4, none⟩]⟩ (exMap 10 0 4 0 4 none) (fun _ => 30)
      (by decide) (by decide) (by decide) (by decide) (fresh_one rfl (Or.inl ⟨_, rfl, by decide⟩))
  | 1, _ =>
    exact .mk [iv 4 8] ⟨⟨.d1, 4, [⟨iv 4 8, 4, 1, 0, 0⟩]⟩, [⟨none, none, iv 4 8, iv 4 8, none⟩]⟩ (exMap 20 4 8 2 8 none) (fun _ => 30)
      (by decide) (by decide) (by decide) (by decide) (fresh_one rfl (Or.inl ⟨_, rfl, by decide⟩))

theorem exPart_trans (a b : Int) (ha : a = 2 ∨ a = 4) (hb : b = 2 ∨ b = 4) : TransOK 2 (exPart a) (exPart b) := by
  rcases ha with rfl | rfl <;> rcases hb with rfl | rfl <;>
    exact ⟨⟨by decide, by decide, by decide⟩, ⟨by decide, by decide, by decide⟩, by decide, by decide, fun r hr => by revert r; decide,
      fun r hr => by revert r; decide⟩

theorem ex_switch {c : Cont Nat} (hr : Reach exSys c) (hT : TransOK exSys.n c.F T) (hn : ∀ p < exSys.n, NewMaps (exSys.bt p) exSys.es (c.L p) (ownOf T p) (tl p) (fr p)) :
    ∃ prog, SwitchTo exSys c 1 T tl fr prog := by
  refine (C60_switch_exists_iff hr hT hn).2 ?_
  intro i _
  refine ⟨by split <;> decide, fun _ h8 => ?_⟩
  have := owners_le c.F exSys.n i
  have : exSys.n = 2 := rfl
  omega

/-- The container is divided at 4, at 2, process 1 then changes the element at index 3
to 77, and it is divided at 4 again: process 0, which is still in its first allocation
with the old element, has the new element. -/
example (m0 : Nat → Nat → Nat) : ∃ c, Reach exSys c ∧ c.F = exPart 4 ∧ c.val exSys 0 3 = [77] ∧ c.val exSys 0 1 = [m0 0 11] ∧
    localAddr (c.L 0) 0 ⟨3, 0, 0⟩ = some 13 := by
  have r1 : Reach exSys ⟨exPart 4, exL1, m0⟩ := .first _ _ _ _ exNew1
  obtain ⟨prog, s1⟩ := ex_switch r1 (exPart_trans 4 2 (by decide) (by decide)) exNew2
  obtain ⟨_, _, k, st, _, hx, hd⟩ := C60_completes_partial exSys_ok r1 s1 (XSteps.nil _)
  have v1 := C60_delivers_partial exSys_ok r1 s1 hx hd (p := 0) (i := 1) (by decide)
  have v1 := v1.one 0 (show ownersAt (exPart 4) 2 1 = [0] by decide)
  have r2 := r1.step (.switch s1 hx hd)
  have r3 := r2.step (.write _ (fun p a => if p = 1 ∧ a = 21 then 77 else st.mem p a))
  obtain ⟨prog', s2⟩ := ex_switch r3 (exPart_trans 2 4 (by decide) (by decide)) exNew3
  obtain ⟨_, _, k', st', _, hx', hd'⟩ := C60_completes_partial exSys_ok r3 s2 (XSteps.nil _)
  have v2 := (C60_delivers_partial exSys_ok r3 s2 hx' hd' (p := 0) (i := 3) (by decide)).one 1 (show ownersAt (exPart 2) 2 3 = [1] by decide)
  have v3 := (C60_delivers_partial exSys_ok r3 s2 hx' hd' (p := 0) (i := 1) (by decide)).one 0 (show ownersAt (exPart 2) 2 1 = [0] by decide)
  refine ⟨_, r3.step (.switch s2 hx' hd'), rfl, v2.trans rfl, v3.trans ?_, rfl⟩
  have : ∀ m : Nat → Nat → Nat, (Cont.mk (exPart 2) exL2 m).val exSys 0 1 = [m 0 11] := fun m => rfl
  rw [this] at v1 ⊢
  exact v1

/-! ### Where the code does not do what is expected -/

/-- Three processes; reduction is the sum. -/
def raceSys : Sys Nat :=
  { n := 3, es := 1, red := fun _ => placeSetup.red, neutral := fun _ => placeSetup.neutral, useReduce := true, bt := fun _ a => a.toNat,
    cf := fun _ => collRef placeSetup }

theorem raceSys_ok : SysOK raceSys where
  red _ _ _ _ _ := rfl
  neutral _ := rfl
  coll o L tl := collRef_ok (raceSys.setup o L tl) (show 0 < 3 by decide) (show 0 < 1 by decide) (fun _ _ _ _ => rfl)

def raceL (p : Nat) : MList := if p < 2 then exMap 10 0 4 0 4 none else noMaps
def raceFr (p : Nat) : MList := if p < 2 then exMap 10 0 4 0 4 (some 0) else noMaps

theorem race_empty {ml : MList} : Fresh (fun a => a.toNat) 1 ml noMaps noMaps where
  lin i a b h := by cases h
  old i a b h := by cases h
  new i j a b c h := by cases h

theorem race_new1 : ∀ p < raceSys.n, NewMaps (raceSys.bt p) raceSys.es noMaps (ownOf (rep [0, 1]) p) (raceL p) noMaps := by
  intro p hp
  have hp : p < 3 := hp
  match p, hp with
  | 0, _ =>
    exact .mk [iv 0 4] ⟨⟨.d1, 4, [⟨iv 0 4, 4, 1, 0, 0⟩]⟩, [⟨none, none, iv 0 4, iv 0 4, none⟩]⟩ _ (fun _ => 10) (by decide) (by decide) rfl (by decide)
      (fresh_one rfl (Or.inr ⟨lin_toNat rfl (by decide), fun c hc => by cases hc⟩))
  | 1, _ =>
    exact .mk [iv 0 4] ⟨⟨.d1, 4, [⟨iv 0 4, 4, 1, 0, 0⟩]⟩, [⟨none, none, iv 0 4, iv 0 4, none⟩]⟩ _ (fun _ => 10) (by decide) (by decide) rfl (by decide)
      (fresh_one rfl (Or.inr ⟨lin_toNat rfl (by decide), fun c hc => by cases hc⟩))
  | 2, _ => exact .mk [] noMaps noMaps (fun _ => 10) (by decide) (by decide) rfl (by decide) race_empty

theorem race_new2 : ∀ p < raceSys.n, NewMaps (raceSys.bt p) raceSys.es (raceL p) (ownOf (rep [0, 1]) p) (raceL p) (raceFr p) := by
  intro p hp
  have hp : p < 3 := hp
  match p, hp with
  | 0, _ =>
    exact .mk [iv 0 4] ⟨⟨.d1, 4, [⟨iv 0 4, 4, 1, 0, 0⟩]⟩, [⟨none, none, iv 0 4, iv 0 4, none⟩]⟩ (exMap 10 0 4 0 4 none) (fun _ => 20)
      (by decide) (by decide) (by decide) (by decide) (fresh_one rfl (Or.inl ⟨_, rfl, by decide⟩))
  | 1, _ =>
    exact .mk [iv 0 4] ⟨⟨.d1, 4, [⟨iv 0 4, 4, 1, 0, 0⟩]⟩, [⟨none, none, iv 0 4, iv 0 4, none⟩]⟩ (exMap 10 0 4 0 4 none) (fun _ => 20)
      (by decide) (by decide) (by decide) (by decide) (fresh_one rfl (Or.inl ⟨_, rfl, by decide⟩))
  | 2, _ => exact .mk [] noMaps noMaps (fun _ => 20) (by decide) (by decide) rfl (by decide) race_empty

theorem race_map : mapFn (fun a => a.toNat) (exMap 10 0 4 0 4 none) = fun m => if m = 0 then some (10, 0) else none := by
  funext m
  unfold mapFn
  by_cases h : m = 0
  · subst h; rfl
  · rw [if_neg h]
    split
    · obtain ⟨k, e⟩ : ∃ k, m.toNat = k + 1 := ⟨m.toNat - 1, by omega⟩
      rw [e]
      rfl
    · rfl

theorem race_ctx {p : Nat} (hp : p < 2) (gs : List (List Nat)) : (raceSys.setup 1 raceL raceL).ctx p gs = placeSetup.ctx p gs := by
  have e : raceL p = exMap 10 0 4 0 4 none := if_pos hp
  show PCtx.mk p 3 1 gs (mapFn (fun a => a.toNat) (raceL p)) (mapFn (fun a => a.toNat) (raceL p)) 1 placeSetup.red placeSetup.neutral true = _
  rw [e, race_map]
  rfl

theorem race_switch : ASwitch (raceSys.setup 1 raceL raceL) (rep [0, 1]) (rep [0, 1]) (fun p => skipFn (raceFr p)) placeProg := by
  refine ⟨repTrans, fun p hp => ?_, place_switch.out⟩
  have hp : p < 3 := hp
  obtain rfl | rfl | rfl : p = 0 ∨ p = 1 ∨ p = 2 := by omega
  · refine ⟨_, _, placeSt, placeCalc 0 _ (by decide), ?_⟩
    rw [race_ctx (by decide), race_ctx (by decide)]
    exact ⟨100, 200, 300, _, [], place0 (place_unused 0), rfl, rfl⟩
  · refine ⟨_, _, placeSt, placeCalc 1 _ (by decide), ?_⟩
    rw [race_ctx (by decide), race_ctx (by decide)]
    exact ⟨100, 200, 300, _, [], place1 (place_unused 1), rfl, rfl⟩
  · exact ⟨_, _, noSt, placeCalc 2 _ (by decide), noOps _ rfl _ _⟩

/-- The claim is false of switches with the default communication whose reduction is
not `AsyncSafe`: processes 0 and 1 of 3 have the values 1 and 2 of an index and switch
to the same partitioning with a sum.  LAIK itself puts the results where the inputs are
(`checkMapReuse`), and processes end with 4 and 3. -/
theorem C60_async_race : ∃ (c : Cont Nat) (tl fr : Nat → MList) (prog : Nat → List (AAct Nat)), Reach raceSys c ∧
    (∀ p < raceSys.n, NewMaps (raceSys.bt p) raceSys.es (c.L p) (ownOf c.F p) (tl p) (fr p)) ∧
    ASwitch (raceSys.setup 1 c.L tl) c.F c.F (fun p => skipFn (fr p)) prog ∧ c.val raceSys 0 0 = [1] ∧ c.val raceSys 1 0 = [2] ∧
    ∃ k st, ASteps raceSys.n (raceSys.cf 1) k (AState.start prog c.mem) st ∧ ADone st ∧
      Cont.val raceSys ⟨c.F, tl, st.mem⟩ 0 0 = [4] ∧ Cont.val raceSys ⟨c.F, tl, st.mem⟩ 1 0 = [3] := by
  refine ⟨⟨rep [0, 1], raceL, fun p _ => p + 1⟩, raceL, raceFr, placeProg, .first _ _ _ _ race_new1, race_new2, race_switch, rfl, rfl, ?_⟩
  obtain ⟨k, st, h1, h2, h3, h4⟩ := place_steps (raceSys.cf 1)
  refine ⟨k, st, h1, h2, ?_, ?_⟩
  · show [st.mem 0 10] = _
    rw [h3]
  · show [st.mem 1 10] = _
    rw [h4]

end Laik.Hs
