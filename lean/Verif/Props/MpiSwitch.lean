import Verif.Model.MpiExists
/-!
# C51: a switch of a 1d container over the MPI backend
-/

namespace Laik.Mp

open Laik.DE Laik.NX

variable {β : Type} {s : MSetup β} {F T : List TR} {skip : Nat → Int → Int → Bool} {prog : Nat → List (CBody β)}
  {m0 : Nat → Nat → β} {val : Nat → Int → List β} {cf : Nat → (Nat → List β) → Nat → List β}

/-- C51: no execution of a switch is stuck before all processes are done (in a
deadlock, because a message of unexpected size arrived, or because processes call
different collectives), even without any buffering of messages; the number of steps
is bounded.  Missing: asynchronous communication (`mpi_async`, the default; see C52),
switches where the backend aborts before it starts (see `C51_switch_exists_iff`). -/
theorem C51_switch_completes_partial (hs : MSwitch s F T skip prog) (hm : MMemOK s F T skip m0 val) (hcf : CollOK s cf) {k : Nat}
    {st : XState (Nat → β) β} (h : XSteps s.n cf k (s.start prog m0) st) :
    (XDone st ∨ ∃ st', XRStep s.n cf st st') ∧ k ≤ ((List.range s.n).map (fun p => (prog p).length)).sum := by
  refine ⟨(hs.inv hm hcf h).1, ?_⟩
  have := (left_steps h (fun p hp => by
    show (prog p).map _ = []
    rw [hs.out p hp]; rfl)).1
  have e : NX.left s.n (s.start prog m0) = ((List.range s.n).map (fun p => (prog p).length)).sum := by
    unfold NX.left
    congr 1
    apply List.map_congr_left
    intro p _
    exact List.length_map _
  omega

/-- C51: when a switch is done, every process has at every index it owns in the
target the element of the only owner in the source, the neutral element if there
was no owner, or the combination of the elements of exactly all owners.  Missing as
above. -/
theorem C51_switch_delivers_partial (hs : MSwitch s F T skip prog) (hm : MMemOK s F T skip m0 val) (hcf : CollOK s cf) {k : Nat}
    {st : XState (Nat → β) β} (h : XSteps s.n cf k (s.start prog m0) st) (hd : XDone st) {r : TR} (hr : r ∈ T) {i : Int} (hi : r.has i)
    {v : List β} (hv : v = readMem (st.mem r.task) ((s.ctx r.task []).cells.dst r.mapNo i) s.es) :
    (∀ q, ownersAt F s.n i = [q] → v = val q i) ∧ (ownersAt F s.n i = [] → v = s.neutral) ∧
    (2 ≤ (ownersAt F s.n i).length → Comb s.red ((ownersAt F s.n i).map (fun q => val q i)) v) := by
  subst hv
  obtain ⟨h1, h2, h3, _⟩ := (hs.inv hm hcf h).2 hd r hr i hi
  exact ⟨h1, h2, h3⟩

/-- Every execution of a switch can be continued to its end. -/
theorem C51_switch_reaches_end (hs : MSwitch s F T skip prog) (hm : MMemOK s F T skip m0 val) (hcf : CollOK s cf) {k : Nat}
    {st : XState (Nat → β) β} (h : XSteps s.n cf k (s.start prog m0) st) :
    ∃ k' st', k ≤ k' ∧ XSteps s.n cf k' (s.start prog m0) st' ∧ XDone st' := by
  generalize hb : ((List.range s.n).map (fun p => (prog p).length)).sum = b
  obtain ⟨d, hd⟩ : ∃ d, d = b - k := ⟨_, rfl⟩
  induction d using Nat.strong_induction_on generalizing k st with
  | _ d ih =>
    obtain ⟨h1, h2⟩ := C51_switch_completes_partial hs hm hcf h
    rcases h1 with h1 | ⟨st', h1⟩
    · exact ⟨k, st, Nat.le_refl _, h, h1⟩
    · have hn := XSteps.snoc h (XStep.sync _ _ h1)
      have h3 := (C51_switch_completes_partial hs hm hcf hn).2
      obtain ⟨k', st', e1, e2, e3⟩ := ih (b - (k + 1)) (by omega) hn rfl
      exact ⟨k', st', by omega, e2, e3⟩

/-- C51: for an associative and commutative reduction, all owners of an index in the
target get the same element, in all executions.  Missing as above. -/
theorem C51_owners_agree_partial (hs : MSwitch s F T skip prog) (hm : MMemOK s F T skip m0 val) (hcf : CollOK s cf)
    (hc : ∀ a b : List β, a.length = s.es → b.length = s.es → s.red a b = s.red b a)
    (ha : ∀ a b c : List β, a.length = s.es → b.length = s.es → c.length = s.es → s.red (s.red a b) c = s.red a (s.red b c))
    {k k' : Nat} {st st' : XState (Nat → β) β} (h : XSteps s.n cf k (s.start prog m0) st) (hd : XDone st)
    (h' : XSteps s.n cf k' (s.start prog m0) st') (hd' : XDone st') {r r' : TR} (hr : r ∈ T) (hr' : r' ∈ T) {i : Int} (hi : r.has i) (hi' : r'.has i) :
    readMem (st.mem r.task) ((s.ctx r.task []).cells.dst r.mapNo i) s.es = readMem (st'.mem r'.task) ((s.ctx r'.task []).cells.dst r'.mapNo i) s.es := by
  obtain ⟨a1, a2, a3⟩ := C51_switch_delivers_partial hs hm hcf h hd hr hi rfl
  obtain ⟨b1, b2, b3⟩ := C51_switch_delivers_partial hs hm hcf h' hd' hr' hi' rfl
  match e : ownersAt F s.n i with
  | [] => rw [a2 e, b2 e]
  | [q] => rw [a1 q e, b1 q e]
  | q :: q' :: l =>
    have h2 : 2 ≤ (ownersAt F s.n i).length := by rw [e]; simp
    refine Comb.unique (Q := fun v => v.length = s.es) hm.red hc ha (a3 h2) (b3 h2) ?_
    intro x hx
    obtain ⟨p, hp, rfl⟩ := List.mem_map.1 hx
    obtain ⟨r, hr, rfl, hri⟩ := (mem_ownersAt hs.trans.goodF.task i p).1 hp
    show (val r.task i).length = s.es
    rw [hm.val r hr i hri]
    unfold readMem
    simp

/-- A switch can be done if and only if at every index owned by some process before
or after, a reduction is given if needed, and there is an owner in the target and at
most 32 owners in the source if more than 8 inputs are to be reduced without a
collective. -/
theorem C51_switch_exists_iff (hT : TransOK s.n F T) (hm : ∀ p < s.n, MapsOK s F T p) (skip : Nat → Int → Int → Bool) :
    (∃ prog, MSwitch s F T skip prog) ↔ ∀ i, ownersAt F s.n i ≠ [] ∨ ownersAt T s.n i ≠ [] →
      (if (ownersAt F s.n i).length = 1 then s.redOp < 100 else s.redOp ≠ 0) ∧
      (¬ (s.useReduce = true ∧ (ownersAt F s.n i).length = s.n ∧ ((ownersAt T s.n i).length = s.n ∨ (ownersAt T s.n i).length = 1)) →
        8 < (ownersAt F s.n i).length → ownersAt T s.n i ≠ [] ∧ (ownersAt F s.n i).length ≤ 32) := by
  have own : ∀ (L : List TR) (i : Int) (p : Nat), p ∈ ownersAt L s.n i → p < s.n := by
    intro L i p h
    exact List.mem_range.1 (List.mem_filter.1 h).1
  constructor
  · rintro ⟨prog, hs⟩ i hi
    have key : ∀ p, p ∈ ownersAt F s.n i ∨ p ∈ ownersAt T s.n i →
        (if (ownersAt F s.n i).length = 1 then s.redOp < 100 else s.redOp ≠ 0) ∧
        (¬ (s.useReduce = true ∧ (ownersAt F s.n i).length = s.n ∧ ((ownersAt T s.n i).length = s.n ∨ (ownersAt T s.n i).length = 1)) →
          8 < (ownersAt F s.n i).length → ownersAt T s.n i ≠ [] ∧ ((ownersAt T s.n i).head? = some p → (ownersAt F s.n i).length ≤ 32)) := by
      intro p hp
      have hpn : p < s.n := hp.elim (own _ _ _) (own _ _ _)
      obtain ⟨F', T', st, hc, hsw⟩ := hs.run p hpn
      exact And.intro ((calculated_some hT p).1 ⟨F', T', st, hc⟩ i hp) ((switch_iff hT hpn hc (hm p hpn) (skip p)).1 ⟨_, hsw⟩ i hp)
    refine ⟨?_, ?_⟩
    · rcases hi with hi | hi
      · obtain ⟨p, hp⟩ := List.exists_mem_of_ne_nil _ hi
        exact (key p (Or.inl hp)).1
      · obtain ⟨p, hp⟩ := List.exists_mem_of_ne_nil _ hi
        exact (key p (Or.inr hp)).1
    · intro hnc h8
      have hne : ownersAt F s.n i ≠ [] := by intro e; rw [e] at h8; simp at h8
      obtain ⟨p, hp⟩ := List.exists_mem_of_ne_nil _ hne
      obtain ⟨hT', _⟩ := (key p (Or.inl hp)).2 hnc h8
      refine ⟨hT', ?_⟩
      cases e : ownersAt T s.n i with
      | nil => exact absurd e hT'
      | cons q l =>
        have hq : q ∈ ownersAt T s.n i := by rw [e]; simp
        exact ((key q (Or.inr hq)).2 hnc h8).2 (by rw [e]; rfl)
  · intro h
    have one : ∀ p, ∃ pr, p < s.n → ∃ F' T' st, Calculated s.n s.redOp F T p F' T' st ∧
        (s.ctx p st.groups).IsSwitch ((s.ctx p []).InUse F T) (skip p) st.ops pr := by
      intro p
      by_cases hpn : p < s.n
      · have hne : ∀ i, p ∈ ownersAt F s.n i ∨ p ∈ ownersAt T s.n i → ownersAt F s.n i ≠ [] ∨ ownersAt T s.n i ≠ [] := by
          intro i hp
          exact hp.imp (fun h => List.ne_nil_of_mem h) (fun h => List.ne_nil_of_mem h)
        obtain ⟨F', T', st, hc⟩ := (calculated_some hT p).2 (fun i hp => (h i (hne i hp)).1)
        obtain ⟨pr, hpr⟩ := (switch_iff hT hpn hc (hm p hpn) (skip p)).2 (fun i hp hnc h8 => by
          obtain ⟨h1, h2⟩ := (h i (hne i hp)).2 hnc h8
          exact ⟨h1, fun _ => h2⟩)
        exact ⟨pr, fun _ => ⟨F', T', st, hc, hpr⟩⟩
      · exact ⟨[], fun h => absurd h hpn⟩
    choose pr hpr using one
    refine ⟨fun p => if p < s.n then pr p else [], hT, ?_, ?_⟩
    · intro p hp
      simp only [if_pos hp]
      exact hpr p hp
    · intro p hp
      simp only [if_neg (show ¬ p < s.n by omega)]

/-! ### Cases meeting the hypotheses -/

/-- Elements are numbers, sizes 1.  The mapping of the source starts at address 10,
that of the target at address 20, both at index 0. -/
def numSetup (n : Nat) (useReduce : Bool) (red : Nat → Nat → Nat) : MSetup Nat :=
  { n := n, es := 1, redOp := 1, red := fun a b => [red (a.getD 0 0) (b.getD 0 0)], neutral := [0], useReduce := useReduce,
    fm := fun _ m => if m = 0 then some (10, 0) else none, tm := fun _ m => if m = 0 then some (20, 0) else none }

/-- Processes in the list own indexes 0 to 3. -/
def rep (l : List Nat) : List TR := l.map (fun p => ⟨p, 0, iv 0 4, 0⟩)

theorem rep_mem {l : List Nat} {r : TR} (h : r ∈ rep l) : r.task ∈ l ∧ r.mapNo = 0 ∧ (∀ i, r.has i ↔ 0 ≤ i ∧ i < 4) ∧ r.box.lo.x = 0 := by
  obtain ⟨p, hp, rfl⟩ := List.mem_map.1 h
  exact ⟨hp, rfl, fun i => Iff.rfl, rfl⟩

theorem num_maps (n : Nat) (u : Bool) (red : Nat → Nat → Nat) (l l' : List Nat) (p : Nat) : MapsOK (numSetup n u red) (rep l) (rep l') p where
  src r hr _ := by
    obtain ⟨_, h1, _, h2⟩ := rep_mem hr
    exact ⟨(10, 0), by rw [h1]; rfl, by rw [h2]⟩
  dst r hr _ := by
    obtain ⟨_, h1, _, h2⟩ := rep_mem hr
    exact ⟨(20, 0), by rw [h1]; rfl, by rw [h2]⟩

theorem num_mem (n : Nat) (u : Bool) (red : Nat → Nat → Nat) (l l' : List Nat) (m0 : Nat → Nat → Nat) :
    MMemOK (numSetup n u red) (rep l) (rep l') (fun _ _ _ => false) m0 (fun p i => [m0 p (10 + i.toNat)]) where
  sep p := by
    have key : ∀ i a, CellOf ((numSetup n u red).ctx p []).cells (rep l) (rep l') p i a →
        0 ≤ i ∧ i < 4 ∧ (a = 10 + i.toNat ∨ a = 20 + i.toNat) := by
      rintro i a (⟨r, hr, _, hi, rfl⟩ | ⟨r, hr, _, hi, rfl⟩)
      · obtain ⟨_, h1, h2, _⟩ := rep_mem hr
        rw [h1]
        refine ⟨((h2 i).1 hi).1, ((h2 i).1 hi).2, Or.inl ?_⟩
        show 10 + (i - 0).toNat * 1 = _
        rw [Int.sub_zero, Nat.mul_one]
      · obtain ⟨_, h1, h2, _⟩ := rep_mem hr
        rw [h1]
        refine ⟨((h2 i).1 hi).1, ((h2 i).1 hi).2, Or.inr ?_⟩
        show 20 + (i - 0).toNat * 1 = _
        rw [Int.sub_zero, Nat.mul_one]
    intro i j a b ha hb
    obtain ⟨a1, a2, a3⟩ := key i a ha
    obtain ⟨b1, b2, b3⟩ := key j b hb
    show (i = j ∧ a = b) ∨ a + 1 ≤ b ∨ b + 1 ≤ a
    omega
  skip r _ r' _ _ h := by cases h
  val r hr i hi := by
    obtain ⟨_, h1, h2, _⟩ := rep_mem hr
    rw [h1]
    show [m0 r.task (10 + i.toNat)] = [m0 r.task (10 + (i - 0).toNat * 1 + 0)]
    rw [Int.sub_zero, Nat.mul_one, Nat.add_zero]
  red a b _ _ := rfl
  neutral := rfl

theorem num_coll {n : Nat} (hn : 0 < n) (u : Bool) (red : Nat → Nat → Nat) : CollOK (numSetup n u red) (collRef (numSetup n u red)) :=
  collRef_ok _ hn (by decide : 0 < 1) (fun _ _ _ _ => rfl)

theorem owners_le (L : List TR) (n : Nat) (i : Int) : (ownersAt L n i).length ≤ n := by
  unfold ownersAt
  have := List.length_filter_le (fun t => L.any (fun r => decide (r.task = t ∧ r.has i))) (List.range n)
  rwa [List.length_range] at this

/-- With at most 8 processes, the switch can always be done. -/
theorem num_switch {n : Nat} (hn : n ≤ 8) (u : Bool) (red : Nat → Nat → Nat) {l l' : List Nat} (h : TransOK n (rep l) (rep l')) :
    ∃ prog, MSwitch (numSetup n u red) (rep l) (rep l') (fun _ _ _ => false) prog := by
  refine (C51_switch_exists_iff (s := numSetup n u red) h (fun p _ => num_maps n u red l l' p) _).2 ?_
  intro i _
  refine ⟨?_, ?_⟩
  · show if _ then 1 < 100 else (1 : Nat) ≠ 0
    split <;> decide
  · intro _ h8
    have := owners_le (rep l) (numSetup n u red).n i
    have : (numSetup n u red).n ≤ 8 := hn
    omega

theorem exTrans : TransOK 3 (rep [0, 1, 2]) (rep [0, 1, 2]) :=
  ⟨⟨by decide, by decide, by decide⟩, ⟨by decide, by decide, by decide⟩, by decide, by decide, fun r hr => by revert r; decide,
    fun r hr => by revert r; decide⟩

/-- All-reduce of three processes, with the collective (`u`) and without: the switch
can be done, all executions end, and then all have the sum. -/
example (u : Bool) : ∃ prog, MSwitch (numSetup 3 u (· + ·)) (rep [0, 1, 2]) (rep [0, 1, 2]) (fun _ _ _ => false) prog ∧
    (∃ k st, XSteps 3 (collRef (numSetup 3 u (· + ·))) k ((numSetup 3 u (· + ·)).start prog (fun p a => p + a)) st ∧ XDone st) ∧
    ∀ k st, XSteps 3 (collRef (numSetup 3 u (· + ·))) k ((numSetup 3 u (· + ·)).start prog (fun p a => p + a)) st → XDone st →
      st.mem 1 23 = 42 ∧ st.mem 2 23 = 42 := by
  obtain ⟨prog, hs⟩ := num_switch (by decide) u (· + ·) exTrans
  have hm := num_mem 3 u (· + ·) [0, 1, 2] [0, 1, 2] (fun p a => p + a)
  have hcf := num_coll (n := 3) (by decide) u (· + ·)
  have hsum : ∀ v, Comb (numSetup 3 u (· + ·)).red ([0, 1, 2].map (fun q => [q + 13])) v → v = [42] := by
    intro v hv
    refine Comb.unique (Q := fun v => v.length = 1) (fun _ _ _ _ => rfl) ?_ ?_ hv (.app (.one [13]) (.app (.one [14]) (.one [15]) (List.Perm.refl _)) (List.Perm.refl _)) (by decide)
    · intro a b _ _
      show [_] = [_]
      exact congrArg (fun x => [x]) (Nat.add_comm _ _)
    · intro a b c _ _ _
      show [_] = [_]
      exact congrArg (fun x => [x]) (Nat.add_assoc _ _ _)
  refine ⟨prog, hs, ?_, ?_⟩
  · obtain ⟨k, st, _, h⟩ := C51_switch_reaches_end hs hm hcf (XSteps.nil _)
    exact ⟨k, st, h⟩
  · intro k st h hd
    have e : ownersAt (rep [0, 1, 2]) 3 3 = [0, 1, 2] := by decide
    have h1 := (C51_switch_delivers_partial hs hm hcf h hd (r := ⟨1, 0, iv 0 4, 0⟩) (i := 3) (by decide) (by decide) rfl).2.2
    have h2 := (C51_switch_delivers_partial hs hm hcf h hd (r := ⟨2, 0, iv 0 4, 0⟩) (i := 3) (by decide) (by decide) rfl).2.2
    have e' : ownersAt (rep [0, 1, 2]) (numSetup 3 u (· + ·)).n 3 = [0, 1, 2] := e
    rw [e'] at h1 h2
    have h1 := hsum _ (h1 (by decide))
    have h2 := hsum _ (h2 (by decide))
    exact ⟨(List.cons.inj h1).1, (List.cons.inj h2).1⟩

/-- Values of process 0 go to all. -/
example : ∃ prog, MSwitch (numSetup 3 true (· + ·)) (rep [0]) (rep [0, 1, 2]) (fun _ _ _ => false) prog ∧
    ∀ k st, XSteps 3 (collRef (numSetup 3 true (· + ·))) k ((numSetup 3 true (· + ·)).start prog (fun p a => p + a)) st → XDone st →
      st.mem 2 23 = 13 := by
  obtain ⟨prog, hs⟩ := num_switch (n := 3) (l := [0]) (l' := [0, 1, 2]) (by decide) true (· + ·)
    ⟨⟨by decide, by decide, by decide⟩, ⟨by decide, by decide, by decide⟩, by decide, by decide, fun r hr => by revert r; decide,
      fun r hr => by revert r; decide⟩
  have hm := num_mem 3 true (· + ·) [0] [0, 1, 2] (fun p a => p + a)
  have hcf := num_coll (n := 3) (by decide) true (· + ·)
  refine ⟨prog, hs, fun k st h hd => ?_⟩
  have := (C51_switch_delivers_partial hs hm hcf h hd (r := ⟨2, 0, iv 0 4, 0⟩) (i := 3) (by decide) (by decide) rfl).1 0 (by decide)
  exact (List.cons.inj this).1

/-! ### Where the code does not do what is expected -/

/-- Sum rounded down to two significant decimal digits. -/
def roundSum (x y : Nat) : Nat := if x + y < 100 then x + y else (x + y) / 10 * 10

/-- C51 is false for replicas of reductions which are not associative, such as sums of
floating point numbers: for a commutative reduction, processes 0 and 2 end up with
different values at an index owned by both. -/
theorem C51_replicas_can_differ : (∀ x y, roundSum x y = roundSum y x) ∧
    ∃ prog m0, MSwitch (numSetup 4 true roundSum) (rep [0, 1, 2]) (rep [0, 1, 2]) (fun _ _ _ => false) prog ∧
      (∃ k st, XSteps 4 (collRef (numSetup 4 true roundSum)) k ((numSetup 4 true roundSum).start prog m0) st ∧ XDone st) ∧
      ∀ cf, CollOK (numSetup 4 true roundSum) cf → ∀ k st, XSteps 4 cf k ((numSetup 4 true roundSum).start prog m0) st → XDone st →
        st.mem 0 20 = 110 ∧ st.mem 2 20 = 100 := by
  refine ⟨fun x y => by unfold roundSum; rw [Nat.add_comm], ?_⟩
  obtain ⟨prog, hs⟩ := num_switch (n := 4) (l := [0, 1, 2]) (l' := [0, 1, 2]) (by decide) true roundSum
    ⟨⟨by decide, by decide, by decide⟩, ⟨by decide, by decide, by decide⟩, by decide, by decide, fun r hr => by revert r; decide,
      fun r hr => by revert r; decide⟩
  have hm := num_mem 4 true roundSum [0, 1, 2] [0, 1, 2] (fun p _ => if p = 2 then 99 else 6)
  refine ⟨prog, fun p _ => if p = 2 then 99 else 6, hs, ?_, ?_⟩
  · obtain ⟨k, st, _, h⟩ := C51_switch_reaches_end hs hm (num_coll (n := 4) (by decide) true roundSum) (XSteps.nil _)
    exact ⟨k, st, h⟩
  · intro cf hcf k st h hd
    have h0 := ((hs.inv hm hcf h).2 hd ⟨0, 0, iv 0 4, 0⟩ (by decide) 0 (by decide)).2.2.2 (by decide) (by decide)
    have h2 := ((hs.inv hm hcf h).2 hd ⟨2, 0, iv 0 4, 0⟩ (by decide) 0 (by decide)).2.2.2 (by decide) (by decide)
    have e0 := h0.trans (by decide : _ = [110])
    have e2 := h2.trans (by decide : _ = [100])
    exact ⟨(List.cons.inj e0).1, (List.cons.inj e2).1⟩

/-- More than 32 inputs without collective: the switch aborts. -/
theorem C51_many_inputs_abort (red : Nat → Nat → Nat) : TransOK 34 (rep (List.range 33)) (rep [0]) ∧
    ¬ ∃ prog, MSwitch (numSetup 34 true red) (rep (List.range 33)) (rep [0]) (fun _ _ _ => false) prog := by
  have hT : TransOK 34 (rep (List.range 33)) (rep [0]) :=
    ⟨⟨by decide, by decide, by decide +kernel⟩, ⟨by decide, by decide, by decide⟩, by decide +kernel, by decide,
      fun r hr => by revert r; decide +kernel, fun r hr => by revert r; decide⟩
  refine ⟨hT, fun h => ?_⟩
  have hl : (ownersAt (rep (List.range 33)) 34 0).length = 33 := by decide +kernel
  have := ((C51_switch_exists_iff (s := numSetup 34 true red) hT (fun p _ => num_maps 34 true red _ _ p) _).1 h 0
    (Or.inr (show ownersAt (rep [0]) 34 0 ≠ [] by decide))).2 (by
      rintro ⟨_, h, _⟩
      have h : (ownersAt (rep (List.range 33)) 34 0).length = 34 := h
      omega) (by
      show 8 < (ownersAt (rep (List.range 33)) 34 0).length
      omega)
  have : (ownersAt (rep (List.range 33)) 34 0).length ≤ 32 := this.2
  omega

/-- More than 8 inputs and no output: the switch aborts. -/
theorem C51_no_output_aborts (u : Bool) (red : Nat → Nat → Nat) : TransOK 9 (rep (List.range 9)) [] ∧
    ¬ ∃ prog, MSwitch (numSetup 9 u red) (rep (List.range 9)) (rep []) (fun _ _ _ => false) prog := by
  have hT : TransOK 9 (rep (List.range 9)) (rep []) :=
    ⟨⟨by decide, by decide, by decide +kernel⟩, ⟨by decide, by decide, by decide⟩, by decide +kernel, by decide,
      fun r hr => by revert r; decide +kernel, fun r hr => by revert r; decide⟩
  refine ⟨hT, fun h => ?_⟩
  have hl : (ownersAt (rep (List.range 9)) 9 0).length = 9 := by decide +kernel
  have e : ownersAt (rep []) 9 0 = [] := by decide
  have := ((C51_switch_exists_iff (s := numSetup 9 u red) hT (fun p _ => num_maps 9 u red _ _ p) _).1 h 0
    (Or.inl (by
      show ownersAt (rep (List.range 9)) 9 0 ≠ []
      intro h; rw [h] at hl; cases hl))).2 (by
      rintro ⟨_, _, h⟩
      have h : (ownersAt (rep []) 9 0).length = 9 ∨ (ownersAt (rep []) 9 0).length = 1 := h
      rw [e] at h
      simp at h) (by
      show 8 < (ownersAt (rep (List.range 9)) 9 0).length
      omega)
  exact this.1 e

end Laik.Mp
