import Verif.Model.ResSwitch
import Verif.Props.History
/-!
# C68: contents of a container with reservations
-/

namespace Laik.Rs

open Lay DE Mp NX Hs

variable {β : Type} {y : Sys β} {c : RCont β} {o : Nat} {T : List TR} {w' : Where}

/-- C68: at any time in the life of a container, with any use of reservations, an
execution of a switch is never stuck, its length is bounded, and it can be continued to
its end.  Missing: switches within a reservation with different tags for an index (see
`C68_local_iff`); asserts in the use of reservations. -/
theorem C68_completes_partial (hy : SysOK y) (hr : Reach y c) {prog : Nat → List (CBody β)} (h : SwitchTo y c.w c.F o T w' prog)
    (ha : Agree c.w w' c.F T) {k : Nat} {st : XState (Nat → β) β} (hx : XSteps y.n (y.cf o) k ((setup y o c.w w').start prog c.mem) st) :
    (XDone st ∨ ∃ st', XRStep y.n (y.cf o) st st') ∧ k ≤ ((List.range y.n).map (fun p => (prog p).length)).sum ∧
    ∃ k' st', k ≤ k' ∧ XSteps y.n (y.cf o) k' ((setup y o c.w w').start prog c.mem) st' ∧ XDone st' := by
  obtain ⟨skip, hp, hs⟩ := h.acts
  have hm := mem_ok (o := o) hy hr.good hs.trans hp ha
  have hcf : CollOK (setup y o c.w w') (y.cf o) := ⟨(hy.coll o (fun _ => noMaps) (fun _ => noMaps)).loc, (hy.coll o (fun _ => noMaps) (fun _ => noMaps)).val⟩
  obtain ⟨h1, h2⟩ := C51_switch_completes_partial hs hm hcf hx
  exact ⟨h1, h2, C51_switch_reaches_end hs hm hcf hx⟩

theorem coll_ok (hy : SysOK y) (w w' : Where) : CollOK (setup y o w w') (y.cf o) :=
  ⟨(hy.coll o (fun _ => noMaps) (fun _ => noMaps)).loc, (hy.coll o (fun _ => noMaps) (fun _ => noMaps)).val⟩

/-- C68: a switch into, within, between or out of reservations gives each owner of an
index the element of the only owner before, the neutral element if there was none, or
the combination of the elements of exactly all owners.  Missing as above. -/
theorem C68_delivers_partial (hy : SysOK y) (hr : Reach y c) {prog : Nat → List (CBody β)} (h : SwitchTo y c.w c.F o T w' prog)
    (ha : Agree c.w w' c.F T) {k : Nat} {st : XState (Nat → β) β} (hx : XSteps y.n (y.cf o) k ((setup y o c.w w').start prog c.mem) st) (hd : XDone st)
    {p : Nat} {i : Int} (hp : p ∈ ownersAt T y.n i) :
    Moved (y.red o) (y.neutral o) (ownersAt c.F y.n i) (fun q => c.val y q i) ((RCont.mk T w' st.mem).val y p i) := by
  obtain ⟨skip, hpr, hs⟩ := h.acts
  have hm := mem_ok (o := o) hy hr.good hs.trans hpr ha
  obtain ⟨r, hr', rfl, hi⟩ := (mem_ownersAt hs.trans.goodT.task i p).1 hp
  obtain ⟨h1, h2, h3⟩ := C51_switch_delivers_partial hs hm (coll_ok hy c.w w') hx hd hr' hi (val_eq (y := y) (w := w') (mem := st.mem) hs.trans.goodT hr' hi)
  exact ⟨h1, h2, h3⟩

/-- C68 for asynchronous communication. -/
theorem C68_async_partial (hy : SysOK y) (hr : Reach y c) {prog : Nat → List (AAct β)} (h : ASwitchTo y c.w c.F o T w' prog)
    (ha : Agree c.w w' c.F T) {k : Nat} {st : AState β} (hx : ASteps y.n (y.cf o) k (AState.start prog c.mem) st) :
    ((ADone st ∨ ∃ st', ARStep y.n (y.cf o) st st') ∧ k ≤ ((List.range y.n).map (fun p => 3 * (prog p).length)).sum ∧
      ∃ k' st', k ≤ k' ∧ ASteps y.n (y.cf o) k' (AState.start prog c.mem) st' ∧ ADone st') ∧
    (ADone st → ∀ p i, p ∈ ownersAt T y.n i →
      Moved (y.red o) (y.neutral o) (ownersAt c.F y.n i) (fun q => c.val y q i) ((RCont.mk T w' st.mem).val y p i)) := by
  obtain ⟨skip, hpr, hs⟩ := h.acts
  have hm := mem_ok (o := o) hy hr.good hs.trans hpr ha
  have hcf := coll_ok (o := o) hy c.w w'
  obtain ⟨h1, h2⟩ := C52_switch_completes_partial hs hm hcf h.safe hx
  refine ⟨⟨h1, h2, C52_switch_reaches_end hs hm hcf h.safe hx⟩, ?_⟩
  intro hd p i hp
  obtain ⟨r, hr', rfl, hi⟩ := (mem_ownersAt hs.trans.goodT.task i p).1 hp
  obtain ⟨h1, h2, h3⟩ := C52_switch_delivers_partial hs hm hcf h.safe hx hd hr' hi (val_eq (y := y) (w := w') (mem := st.mem) hs.trans.goodT hr' hi)
  exact ⟨h1, h2, h3⟩

/-- C68: actions for a switch can be made under the same condition as without
reservations. -/
theorem C68_switch_exists_iff (hr : Reach y c) (hT : TransOK y.n c.F T) {skip : Nat → Int → Int → Bool} (hn : Prep y c.w T w' skip) :
    (∃ prog, MSwitch (setup y o c.w w') c.F T skip prog) ↔ ∀ i, ownersAt c.F y.n i ≠ [] ∨ ownersAt T y.n i ≠ [] →
      (if (ownersAt c.F y.n i).length = 1 then o < 100 else o ≠ 0) ∧
      (¬ (y.useReduce = true ∧ (ownersAt c.F y.n i).length = y.n ∧ ((ownersAt T y.n i).length = y.n ∨ (ownersAt T y.n i).length = 1)) →
        8 < (ownersAt c.F y.n i).length → ownersAt T y.n i ≠ [] ∧ (ownersAt c.F y.n i).length ≤ 32) :=
  C51_switch_exists_iff (s := setup y o c.w w') hT (fun p hp => maps_ok hr.good (hn.good hr.good) hp) skip

/-- C68: a sequence of actions prepared once for partitionings `k` and `l` of a
reservation (`laik_calc_actions`, src/data.c 1211-1249) does what it has to do in each
later execution (`laik_exec_actions`, 1252-1290), whatever was done with the container
in the meantime: whenever the mappings for `k` are the active ones again. -/
theorem C68_prepared (hy : SysOK y) {v : Rsv} {k l : Nat} {F : List TR} {prog : Nat → List (CBody β)}
    (h : SwitchTo y (.res v k) F o T (.res v l) prog) (ha : TagsAgree F T) (hr : Reach y c) (hw : c.w = .res v k) (hF : c.F = F) :
    (∃ n st, XSteps y.n (y.cf o) n ((setup y o c.w (.res v l)).start prog c.mem) st ∧ XDone st) ∧
    ∀ n st, XSteps y.n (y.cf o) n ((setup y o c.w (.res v l)).start prog c.mem) st → XDone st →
      Reach y ⟨T, .res v l, st.mem⟩ ∧ ∀ p i, p ∈ ownersAt T y.n i →
        Moved (y.red o) (y.neutral o) (ownersAt F y.n i) (fun q => c.val y q i) ((RCont.mk T (.res v l) st.mem).val y p i) := by
  subst hF
  rw [← hw] at h
  have ha' : Agree c.w (.res v l) c.F T := fun _ _ _ _ _ => ha
  refine ⟨?_, fun n st hx hd => ⟨hr.step (.switch h hx hd), fun p i hp => C68_delivers_partial hy hr h ha' hx hd hp⟩⟩
  obtain ⟨_, _, k', st', _, h1, h2⟩ := C68_completes_partial hy hr h ha' (XSteps.nil _)
  exact ⟨k', st', h1, h2⟩

/-- The only owner of an index. -/
def RCont.Owner (y : Sys β) (c : RCont β) (i : Int) (q : Nat) : Prop := ownersAt c.F y.n i = [q]

/-- Histories after which index `i` has its element still. -/
inductive Kept (y : Sys β) (i : Int) : RCont β → RCont β → Prop
  | refl (c : RCont β) : Kept y i c c
  | write {c c' : RCont β} (h : Kept y i c c') (mem : Nat → Nat → β)
      (hw : ∀ q, c'.Owner y i q → ({ c' with mem := mem } : RCont β).val y q i = c'.val y q i) : Kept y i c { c' with mem := mem }
  | switch {c c' : RCont β} (h : Kept y i c c') {o : Nat} {T : List TR} {w' : Where} {prog : Nat → List (CBody β)} {k : Nat}
      {st : XState (Nat → β) β} (hs : SwitchTo y c'.w c'.F o T w' prog) (ha : Agree c'.w w' c'.F T)
      (hx : XSteps y.n (y.cf o) k ((setup y o c'.w w').start prog c'.mem) st) (hd : XDone st) (hq : ∃ q, (RCont.mk T w' st.mem).Owner y i q) :
      Kept y i c ⟨T, w', st.mem⟩
  | aswitch {c c' : RCont β} (h : Kept y i c c') {o : Nat} {T : List TR} {w' : Where} {prog : Nat → List (AAct β)} {k : Nat}
      {st : AState β} (hs : ASwitchTo y c'.w c'.F o T w' prog) (ha : Agree c'.w w' c'.F T)
      (hx : ASteps y.n (y.cf o) k (AState.start prog c'.mem) st) (hd : ADone st) (hq : ∃ q, (RCont.mk T w' st.mem).Owner y i q) :
      Kept y i c ⟨T, w', st.mem⟩

/-- C68: an element survives any number of switches into, within, between and out of
reservations. -/
theorem C68_kept (hy : SysOK y) {c c' : RCont β} (hr : Reach y c) {i : Int} (h : Kept y i c c') {q q' : Nat} (hq : c.Owner y i q)
    (hq' : c'.Owner y i q') : c'.val y q' i = c.val y q i := by
  suffices H : Reach y c' ∧ ∃ q', c'.Owner y i q' ∧ c'.val y q' i = c.val y q i by
    obtain ⟨_, x, h1, h2⟩ := H
    have : x = q' := by
      unfold RCont.Owner at h1 hq'
      rw [h1] at hq'
      exact (List.cons.inj hq').1
    rw [← this]
    exact h2
  clear hq' q'
  induction h with
  | refl => exact ⟨hr, q, hq, rfl⟩
  | write h mem hw ih =>
    obtain ⟨h1, x, h2, h3⟩ := ih
    exact ⟨h1.step (.write _ mem), x, h2, (hw x h2).trans h3⟩
  | switch h hs ha hx hd hq ih =>
    obtain ⟨h1, x, h2, h3⟩ := ih
    obtain ⟨z, hz⟩ := hq
    refine ⟨h1.step (.switch hs hx hd), z, hz, ?_⟩
    refine ((C68_delivers_partial hy h1 hs ha hx hd ?_).one x h2).trans h3
    rw [show ownersAt _ y.n i = [z] from hz]; simp
  | aswitch h hs ha hx hd hq ih =>
    obtain ⟨h1, x, h2, h3⟩ := ih
    obtain ⟨z, hz⟩ := hq
    refine ⟨h1.step (.aswitch hs hx hd), z, hz, ?_⟩
    refine (((C68_async_partial hy h1 hs ha hx).2 hd z i ?_).one x h2).trans h3
    rw [show ownersAt _ y.n i = [z] from hz]; simp

/-! ### Switches without communication -/

/-- Owners of the target are the only owners before: nothing has to be sent or
reduced. -/
def LocalOnly (n : Nat) (F T : List TR) : Prop := ∀ i, (ownersAt F n i).length ≤ 1 ∧ ∀ q ∈ ownersAt T n i, ownersAt F n i = [q]

theorem local_ops {n redOp p : Nat} {F T F' T' : List TR} {st : TSt} (hT : TransOK n F T) (hl : LocalOnly n F T)
    (hc : Calculated n redOp F T p F' T' st) {op : TOp} (ho : op ∈ st.ops) : ∃ x z a b, op = .loc x z a b := by
  have hm : op.resolve n p st.groups ∈ st.res n p := List.mem_map_of_mem ho
  obtain ⟨s, _, l, el, hol, _⟩ := op_seg hT hc hm
  obtain ⟨l1, l2⟩ := hl s.1
  have key : ∃ x z a b, op.resolve n p st.groups = .loc x z a b := by
    unfold specSeg at el
    simp only at el
    split at el
    · cases el; cases hol
    · rename_i hin
      split at el
      · split at el
        · split at el
          · rename_i he
            cases el
            obtain ⟨q, hq, e⟩ := List.mem_map.1 hol
            have := l2 q hq
            rw [he] at this
            have : p = q := (List.cons.inj this).1
            rw [if_pos this.symm] at e
            exact ⟨_, _, _, _, e.symm⟩
          · rename_i he
            cases el
            split at hol
            · rename_i ho
              exact absurd (l2 p ho) he
            · cases hol
        · cases el
      · rename_i hlen
        have h0 : ownersAt F n s.1 = [] := List.eq_nil_of_length_eq_zero (by omega)
        exfalso
        apply hin
        refine ⟨by rw [h0]; simp, fun hp => ?_⟩
        have := l2 p hp
        rw [h0] at this
        cases this
  obtain ⟨x, z, a, b, e⟩ := key
  cases op with
  | loc x z a b => exact ⟨_, _, _, _, rfl⟩
  | send => cases e
  | recv => cases e
  | red => cases e

theorem collect_nil {α γ : Type} {f : α → Option (List γ)} : ∀ {l : List α} {r : List γ}, (∀ a ∈ l, ∀ x, f a = some x → x = []) → collect f l = some r → r = [] := by
  intro l
  induction l with
  | nil => intro r _ h; cases h; rfl
  | cons a l ih =>
    intro r hf h
    unfold collect at h
    cases e : f a with
    | none => rw [e] at h; cases h
    | some x =>
      rw [e, Option.bind_some] at h
      have hx := hf a List.mem_cons_self x e
      subst hx
      cases e' : collect f l with
      | none => rw [e'] at h; cases h
      | some z =>
        rw [e'] at h
        cases h
        exact ih (fun b hb => hf b (List.mem_cons_of_mem _ hb)) e'

theorem prepared_nil {cx : PCtx β} {u : Nat → Prop} {B1 B2 B3 : Nat} {ops : List TOp} {p1 : List (CBody β)}
    (hl : ∀ op ∈ ops, ∃ x z a b, op = .loc x z a b) (h : cx.Prepared u B1 B2 B3 ops p1) : p1 = [] := by
  obtain ⟨l5, ⟨l, l0, l1, l2, s1, l3, l4, s2, e1, e2, e3, _, e4, _, _, e5, e6, _, _, e7⟩, rfl⟩ := h
  have hf : ∀ f : TOp → Bool, (∀ x z a b, f (.loc x z a b) = false) → ops.filter f = [] := by
    intro f hf
    rw [List.filter_eq_nil_iff]
    intro op ho
    obtain ⟨x, z, a, b, rfl⟩ := hl op ho
    rw [hf]
    simp
  unfold PCtx.flat at e1
  rw [hf tIsRed (fun _ _ _ _ => rfl), hf tIsSend (fun _ _ _ _ => rfl), hf tIsRecv (fun _ _ _ _ => rfl)] at e1
  cases e1
  have e0 : l0 = [] := by rw [e2]; split <;> rfl
  subst e0
  cases e3
  cases e4
  cases e5
  cases e6
  cases e7
  rfl

/-- Nothing is done in a switch within a reservation without communication. -/
theorem stay_nothing {v : Rsv} {k l : Nat} {F : List TR} {prog : Nat → List (CBody β)} (hl : LocalOnly y.n F T)
    (h : MSwitch (setup y o (.res v k) (.res v l)) F T (fun _ _ _ => true) prog) (p : Nat) : prog p = [] := by
  by_cases hp : p < y.n
  · obtain ⟨F', T', st, hc, B1, B2, B3, p1, p2, h1, h2, h3⟩ := h.run p hp
    have hloc : ∀ op ∈ st.ops, ∃ x z a b, op = .loc x z a b := fun op ho => local_ops h.trans hl hc ho
    rw [h3, prepared_nil hloc h1]
    refine collect_nil ?_ h2
    intro op ho x hx
    obtain ⟨_, _, _, _, rfl⟩ := hloc op ho
    unfold PCtx.copyLoc at hx
    cases hx
    rfl
  · exact h.out p (Nat.le_of_not_lt hp)

theorem nothing_steps {M V : Type} {N : Nat} {cf : Nat → (Nat → List V) → Nat → List V} {k : Nat} {a b : XState M V} (h : XSteps N cf k a b)
    (ha : ∀ p, a.rem p = []) (hN : 0 < N) : b = a := by
  induction h with
  | nil => rfl
  | snoc _ hs ih =>
    have ih := ih ha
    subst ih
    cases hs with
    | sync _ h =>
      cases h with
      | loc p f t h => rw [ha p] at h; cases h
      | recv p q n inn t vs c h hc hl => rw [ha q] at h; cases h
      | meet p q n out inn t t' hne hp hq hc hl => rw [ha p] at hp; cases hp
      | coll => rename_i h; have := h 0 hN; rw [ha 0] at this; cases this
    | buf p q out t h => rw [ha p] at h; cases h

/-- A reservation with an index has memory in common with itself. -/
theorem not_off_self (hes : 0 < y.es) {v : Rsv} (hv : v.OK y) (ho : RsvOff y v v) {k : Nat} {Q : List TR} (hQ : v.Qs[k]? = some Q) {r : TR}
    (hr : r ∈ Q) (hp : r.task < y.n) {i : Int} (hi : r.has i) : False := by
  obtain ⟨m, _, a2, _, a4⟩ := res_adr hv hQ hr hp
  obtain ⟨_, q2, q3⟩ := a4 i hi
  obtain ⟨x2, x3⟩ := elem_in y.es (x := i - m.allocated.lo.x) (n := m.allocated.hi.x - m.allocated.lo.x) (b := v.ba r.task m.base)
    (z := v.blk y.es r.task m.base m.allocated) rfl (by omega) (by omega)
  rcases ho _ hp _ _ a2 _ _ a2 with h | h <;> omega

/-- C68: within a reservation, a switch without communication keeps all elements, for
any contents of memory, if and only if ranges with a common index have the same tag:
`copyMaps` (src/data.c 558) never copies within a reservation, although memory is shared
for the same tag only. -/
theorem C68_local_iff (hn : 0 < y.n) (hes : 0 < y.es) {b0 b1 : β} (hb : b0 ≠ b1) {v : Rsv} {k l : Nat} {F : List TR}
    {prog : Nat → List (CBody β)} (hk : v.Qs[k]? = some F) (hl : LocalOnly y.n F T)
    (h : SwitchTo y (.res v k) F o T (.res v l) prog) :
    (∀ mem n st, XSteps y.n (y.cf o) n ((setup y o (.res v k) (.res v l)).start prog mem) st → XDone st →
      ∀ p i, p ∈ ownersAt T y.n i → (RCont.mk T (.res v l) st.mem).val y p i = (RCont.mk F (.res v k) mem).val y p i) ↔ TagsAgree F T := by
  obtain ⟨skip, hprep, h⟩ := h.acts
  cases hprep with
  | over hv hq ho =>
    refine ⟨fun _ r hr r' _ _ i hi _ => (not_off_self hes hv ho hk hr (h.trans.goodF.task r hr) hi).elim, fun _ _ _ _ _ _ p i hp => ?_⟩
    obtain ⟨r', hr', _, hi'⟩ := (mem_ownersAt h.trans.goodT.task i p).1 hp
    exact (not_off_self hes hv ho hq hr' (h.trans.goodT.task r' hr') hi').elim
  | stay hv hq =>
  have hprog := stay_nothing hl h
  have hrem : ∀ mem p, ((setup y o (.res v k) (.res v l)).start prog mem).rem p = [] := by
    intro mem p
    show (prog p).map _ = []
    rw [hprog p]; rfl
  have hT := h.trans
  have hg : (Where.res v k).Good y F := ⟨hv, hk⟩
  have hg' : (Where.res v l).Good y T := ⟨hv, hq⟩
  have own : ∀ r' ∈ T, ∀ i, r'.has i → ∃ r ∈ F, r.task = r'.task ∧ r.has i := by
    intro r' hr' i hi
    have h1 := (hl i).2 r'.task ((mem_ownersAt hT.goodT.task i _).2 ⟨r', hr', rfl, hi⟩)
    obtain ⟨r, hr, e, hi'⟩ := (mem_ownersAt hT.goodF.task i r'.task).1 (by
      show r'.task ∈ ownersAt F y.n i
      rw [h1]; simp)
    exact ⟨r, hr, e, hi'⟩
  constructor
  · intro H r hr r' hr' ht i hi hi'
    by_cases htag : r.tag = r'.tag
    · exact htag
    · exfalso
      have hlt : r.task < y.n := hT.goodF.task r hr
      obtain ⟨m, a1, a2, a3, a4⟩ := res_adr hv hk hr hlt
      obtain ⟨m', c1, c2, c3, c4⟩ := res_adr hv hq hr' (by rw [← ht]; exact hlt)
      rw [← ht] at c1 c2 c3 c4
      obtain ⟨x, x', e1, e2, e3, _⟩ := Laik.base_iff (hv.res _ hlt) a3 c3
      rw [a1] at e1
      rw [c1] at e2
      cases e1
      cases e2
      have hne : m.base ≠ m'.base := fun e => htag (e3.1 e)
      obtain ⟨q1, q2, q3⟩ := a4 i hi
      obtain ⟨t1, t2, t3⟩ := c4 i hi'
      obtain ⟨x2, x3⟩ := elem_in y.es (x := i - m.allocated.lo.x) (n := m.allocated.hi.x - m.allocated.lo.x) (b := v.ba r.task m.base)
        (z := v.blk y.es r.task m.base m.allocated) rfl (by omega) (by omega)
      obtain ⟨z1, z2⟩ := elem_in y.es (x := i - m'.allocated.lo.x) (n := m'.allocated.hi.x - m'.allocated.lo.x) (b := v.ba r.task m'.base)
        (z := v.blk y.es r.task m'.base m'.allocated) rfl (by omega) (by omega)
      have hoff := hv.apart _ hlt _ _ _ _ a2 c2 hne
      have hds : adr y.es ((Where.res v k).fn y r.task r.mapNo) i ≠ adr y.es ((Where.res v l).fn y r.task r'.mapNo) i := by
        rw [q1, t1]
        rcases hoff with h | h <;> omega
      have hd : XDone ((setup y o (.res v k) (.res v l)).start prog
          (fun _ a => if a = adr y.es ((Where.res v k).fn y r.task r.mapNo) i then b0 else b1)) := ⟨hrem _, fun _ _ => rfl⟩
      have := H _ 0 _ (XSteps.nil _) hd r'.task i ((mem_ownersAt hT.goodT.task i _).2 ⟨r', hr', rfl, hi'⟩)
      rw [val_eq hT.goodT hr' hi', ← ht, val_eq hT.goodF hr hi] at this
      have := congrArg (fun l => l[0]?) this
      simp only [readMem, List.getElem?_map, List.getElem?_range hes, Option.map_some, Nat.add_zero] at this
      have hm : ((setup y o (.res v k) (.res v l)).start prog
          (fun _ a => if a = adr y.es ((Where.res v k).fn y r.task r.mapNo) i then b0 else b1)).mem =
          (fun _ a => if a = adr y.es ((Where.res v k).fn y r.task r.mapNo) i then b0 else b1) := rfl
      rw [hm] at this
      simp only [if_pos, if_neg (Ne.symm hds), Option.some.injEq] at this
      exact hb this.symm
  · intro ha mem n st hx _ p i hp
    have := nothing_steps hx (hrem mem) hn
    subst this
    obtain ⟨r', hr', rfl, hi'⟩ := (mem_ownersAt hT.goodT.task i p).1 hp
    obtain ⟨r, hr, ht, hi⟩ := own r' hr' i hi'
    rw [val_eq hT.goodT hr' hi', ← ht, val_eq hT.goodF hr hi]
    rw [stay_same hg hg' hr hr' ht (hT.goodF.task r hr) (ha r hr r' hr' ht i hi hi') hi hi']
    rfl

/-! ### Cases meeting the hypotheses -/

/-- Indexes 0 to 7 divided at 4, and the same with one more index at the border. -/
def exExcl : List TR := [⟨0, 1, iv 0 4, 0⟩, ⟨1, 1, iv 4 8, 0⟩]
def exHalo : List TR := [⟨0, 1, iv 0 5, 0⟩, ⟨1, 1, iv 3 8, 0⟩]

/-- Reservation for both: one allocation in each process. -/
def exRsv : Rsv :=
  { Qs := [exExcl, exHalo]
    R := fun p => if p = 0 then ⟨[iv 0 5], [⟨0, 0, 0, iv 0 4⟩, ⟨1, 0, 0, iv 0 5⟩]⟩ else ⟨[iv 3 8], [⟨0, 0, 0, iv 4 8⟩, ⟨1, 0, 0, iv 3 8⟩]⟩
    ba := fun _ _ => 10 }

theorem exRsv_ok : exRsv.OK exSys where
  res p hp := by
    have hp : p < 2 := hp
    obtain rfl | rfl : p = 0 ∨ p = 1 := by omega
    · exact ⟨[⟨0, 0, 1⟩, ⟨1, 0, 1⟩], [⟨0, 0, 1⟩, ⟨1, 0, 1⟩], rfl, by decide, by decide, rfl⟩
    · exact ⟨[⟨0, 0, 1⟩, ⟨1, 0, 1⟩], [⟨0, 0, 1⟩, ⟨1, 0, 1⟩], rfl, by decide, by decide, rfl⟩
  nos := by decide
  apart p hp a b A B hA hB hne := by
    have hp : p < 2 := hp
    obtain rfl | rfl : p = 0 ∨ p = 1 := by omega
    · have h1 := (List.getElem?_eq_some_iff.1 hA).1
      have h2 := (List.getElem?_eq_some_iff.1 hB).1
      have h1 : a < 1 := h1
      have h2 : b < 1 := h2
      omega
    · have h1 := (List.getElem?_eq_some_iff.1 hA).1
      have h2 := (List.getElem?_eq_some_iff.1 hB).1
      have h1 : a < 1 := h1
      have h2 : b < 1 := h2
      omega

theorem exTrans : TransOK exSys.n exExcl exHalo :=
  ⟨⟨by decide, by decide, by decide⟩, ⟨by decide, by decide, by decide⟩, by decide, by decide, fun r hr => by revert r; decide,
    fun r hr => by revert r; decide⟩

theorem exAgree : TagsAgree exExcl exHalo := by
  intro r hr r' hr' _ i _ _
  have h1 : ∀ r ∈ exExcl, r.tag = 1 := by decide
  have h2 : ∀ r ∈ exHalo, r.tag = 1 := by decide
  rw [h1 r hr, h2 r' hr']

/-- Sequence for the halo exchange in the reservation. -/
theorem ex_prepared : ∃ prog, SwitchTo exSys (.res exRsv 0) exExcl 1 exHalo (.res exRsv 1) prog := by
  have r1 : Reach exSys ⟨exExcl, .res exRsv 0, fun _ _ => 0⟩ := .first _ _ _ _ (.into exRsv_ok rfl (fun p _ m hm => nomatch hm))
  obtain ⟨prog, h⟩ := (C68_switch_exists_iff (o := 1) r1 exTrans (.stay (k := 0) (l := 1) exRsv_ok rfl)).2 (by
    intro i _
    refine ⟨by split <;> decide, fun _ h8 => ?_⟩
    have := owners_le exExcl exSys.n i
    have : exSys.n = 2 := rfl
    have h8 : 8 < (ownersAt exExcl exSys.n i).length := h8
    omega)
  exact ⟨prog, _, .stay exRsv_ok rfl, h⟩

/-- A prepared halo exchange is done twice; in between, process 1 changes its first
element, and the container is switched back without keeping data: process 0 has the
new element in its halo, at the same address. -/
example (m0 : Nat → Nat → Nat) : ∃ c, Reach exSys c ∧ c.F = exHalo ∧ c.w = .res exRsv 1 ∧ c.val exSys 0 4 = [77] ∧ c.mem 0 14 = 77 := by
  obtain ⟨prog, hs⟩ := ex_prepared
  have r1 : Reach exSys ⟨exExcl, .res exRsv 0, m0⟩ := .first _ _ _ _ (.into exRsv_ok rfl (fun p _ m hm => nomatch hm))
  obtain ⟨⟨n, st, hx, hd⟩, h1⟩ := C68_prepared exSys_ok hs exAgree r1 rfl rfl
  obtain ⟨r2, _⟩ := h1 n st hx hd
  have r3 : Reach exSys ⟨exExcl, .res exRsv 0, fun p a => if p = 1 ∧ a = 11 then 77 else st.mem p a⟩ := r2.step (.drop (.stay exRsv_ok rfl) _)
  obtain ⟨⟨n', st', hx', hd'⟩, h2⟩ := C68_prepared exSys_ok hs exAgree r3 rfl rfl
  obtain ⟨r4, h3⟩ := h2 n' st' hx' hd'
  have v := (h3 0 4 (by decide)).one 1 (show ownersAt exExcl 2 4 = [1] by decide)
  have e : (RCont.mk exExcl (.res exRsv 0) (fun p a => if p = 1 ∧ a = 11 then 77 else st.mem p a)).val exSys 1 4 = [77] := rfl
  rw [e] at v
  refine ⟨_, r4, rfl, rfl, v, ?_⟩
  have e2 : (RCont.mk exHalo (.res exRsv 1) st'.mem).val exSys 0 4 = [st'.mem 0 14] := rfl
  rw [e2] at v
  exact (List.cons.inj v).1

/-! ### Where the code does not do what is expected -/

/-- One process. -/
def oneSys : Sys Nat :=
  { n := 1, es := 1, red := fun _ a b => [a.getD 0 0 + b.getD 0 0], neutral := fun _ => [0], useReduce := true, bt := fun _ a => a.toNat,
    cf := fun _ => collRef (numSetup 1 true (· + ·)) }

theorem oneSys_ok : SysOK oneSys where
  red _ _ _ _ _ := rfl
  neutral _ := rfl
  coll o L tl := collRef_ok (oneSys.setup o L tl) (show 0 < 1 by decide) (show 0 < 1 by decide) (fun _ _ _ _ => rfl)

/-- Partitioning of the Master partitioner (src/partitioner.c 170-174, tag 0) and of the
bisection partitioner (369-403, tag 1) in one process. -/
def oneMaster : List TR := [⟨0, 0, iv 0 4, 0⟩]
def oneBisect : List TR := [⟨0, 1, iv 0 4, 0⟩]

def oneRsv : Rsv :=
  { Qs := [oneMaster, oneBisect], R := fun _ => ⟨[iv 0 4, iv 0 4], [⟨0, 0, 0, iv 0 4⟩, ⟨1, 0, 1, iv 0 4⟩]⟩, ba := fun _ a => 10 + 10 * a }

theorem oneRsv_ok : oneRsv.OK oneSys where
  res p hp := by
    have hp : p < 1 := hp
    obtain rfl : p = 0 := by omega
    exact ⟨[⟨0, 0, 0⟩, ⟨1, 0, 1⟩], [⟨0, 0, 0⟩, ⟨1, 0, 1⟩], rfl, by decide, by decide, rfl⟩
  nos := by decide
  apart p hp a b A B hA hB hne := by
    have h1 : a < 2 := (List.getElem?_eq_some_iff.1 hA).1
    have h2 : b < 2 := (List.getElem?_eq_some_iff.1 hB).1
    have hA : ([iv 0 4, iv 0 4] : List Box)[a]? = some A := hA
    have hB : ([iv 0 4, iv 0 4] : List Box)[b]? = some B := hB
    have : A = iv 0 4 := by
      obtain rfl | rfl : a = 0 ∨ a = 1 := by omega
      · exact (Option.some.inj hA).symm
      · exact (Option.some.inj hA).symm
    have : B = iv 0 4 := by
      obtain rfl | rfl : b = 0 ∨ b = 1 := by omega
      · exact (Option.some.inj hB).symm
      · exact (Option.some.inj hB).symm
    subst A
    subst B
    show 10 + 10 * a + (4 - 0 : Int).toNat * 1 ≤ 10 + 10 * b ∨ 10 + 10 * b + (4 - 0 : Int).toNat * 1 ≤ 10 + 10 * a
    have : (4 - 0 : Int).toNat = 4 := rfl
    omega

theorem oneTrans : TransOK oneSys.n oneMaster oneBisect :=
  ⟨⟨by decide, by decide, by decide⟩, ⟨by decide, by decide, by decide⟩, by decide, by decide, fun r hr => by revert r; decide,
    fun r hr => by revert r; decide⟩

theorem one_local : LocalOnly oneSys.n oneMaster oneBisect := by
  intro i
  have hF : ∀ L, ownersAt L oneSys.n i = if L.any (fun r => decide (r.task = 0 ∧ r.has i)) then [0] else [] := by
    intro L
    show (List.range 1).filter _ = _
    simp [List.range_succ]
    split <;> simp_all
  have e : ∀ t : Int, ([⟨0, t, iv 0 4, 0⟩] : List TR).any (fun r => decide (r.task = 0 ∧ r.has i)) = decide (0 ≤ i ∧ i < 4) := by
    intro t
    simp [TR.has, iv]
  rw [hF, hF]
  unfold oneMaster oneBisect
  rw [e, e]
  split
  · refine ⟨by simp, fun q hq => ?_⟩
    rw [List.mem_singleton.1 hq]
  · exact ⟨by simp, fun q hq => nomatch hq⟩

/-- C68 is false if tags are different: all elements of a container are lost in the
switch from Master to bisection partitioning in one reservation, in one process: the
container has what was in the memory for tag 1 before.  All hypotheses but equal tags
hold. -/
theorem C68_tags_lose : SysOK oneSys ∧ oneRsv.OK oneSys ∧ (∃ prog, SwitchTo oneSys (.res oneRsv 0) oneMaster 1 oneBisect (.res oneRsv 1) prog) ∧
    ∀ prog, SwitchTo oneSys (.res oneRsv 0) oneMaster 1 oneBisect (.res oneRsv 1) prog → ∀ m0 k st,
      XSteps 1 (oneSys.cf 1) k ((setup oneSys 1 (.res oneRsv 0) (.res oneRsv 1)).start prog m0) st →
      (RCont.mk oneMaster (.res oneRsv 0) m0).val oneSys 0 2 = [m0 0 12] ∧
      (RCont.mk oneBisect (.res oneRsv 1) st.mem).val oneSys 0 2 = [m0 0 22] := by
  refine ⟨oneSys_ok, oneRsv_ok, ?_, ?_⟩
  · have r1 : Reach oneSys ⟨oneMaster, .res oneRsv 0, fun _ _ => 0⟩ := .first _ _ _ _ (.into oneRsv_ok rfl (fun p _ m hm => nomatch hm))
    obtain ⟨prog, h⟩ := (C68_switch_exists_iff (o := 1) r1 oneTrans (.stay (k := 0) (l := 1) oneRsv_ok rfl)).2 (by
      intro i _
      refine ⟨by split <;> decide, fun _ h8 => ?_⟩
      have := owners_le oneMaster oneSys.n i
      have : oneSys.n = 1 := rfl
      have h8 : 8 < (ownersAt oneMaster oneSys.n i).length := h8
      omega)
    exact ⟨prog, _, .stay oneRsv_ok rfl, h⟩
  · intro prog h m0 k st hx
    refine ⟨rfl, ?_⟩
    obtain ⟨skip, hprep, h⟩ := h.acts
    cases hprep with
    | over hv hq ho => exact (not_off_self (by decide) hv ho (k := 0) rfl (r := ⟨0, 0, iv 0 4, 0⟩) (by decide) (by decide) (i := 2) (by decide)).elim
    | stay hv hq =>
    have := nothing_steps hx (fun p => by
      show (prog p).map _ = []
      rw [stay_nothing one_local h p]; rfl) (by decide)
    subst this
    rfl

end Laik.Rs
