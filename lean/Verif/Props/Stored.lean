import Verif.Model.StoredEnough
import Verif.Props.Partitioner
import Verif.Props.Transition
/-!
# C49: range lists stored in partitionings
-/

namespace Laik.Sto

/-- All ranges appended by the partitioner are 1d and non-empty. -/
def Prog.OneD (pr : Prog) : Prop :=
  ∀ c ∈ pr.calls, c.box.lo.y = 0 ∧ c.box.lo.z = 0 ∧ c.box.hi.y = 0 ∧ c.box.hi.z = 0 ∧ c.box.lo.x < c.box.hi.x

/-- Ranges of process `i`. -/
def mine (i : Nat) (L : List TR) : List TR := L.filter (fun r => decide (r.task = i))

/-- Begin and end. -/
def ends (L : List TR) : List (Int × Int) := L.map (fun r => (r.box.lo.x, r.box.hi.x))

/-- Part of a list found with the offset array. -/
def RangeList.slice (L : RangeList) (i : Nat) : Option (List TR) :=
  match L.off[i]?, L.off[i+1]? with
  | some a, some b => some ((L.tr.take b).drop a)
  | _, _ => none

theorem Prog.OneD.flat {pr : Prog} (h : pr.OneD) : ∀ c ∈ pr.calls, Flat c.tr :=
  fun c hc => ⟨(h c hc).1, (h c hc).2.1, (h c hc).2.2.1, (h c hc).2.2.2.1, rfl, (h c hc).2.2.2.2⟩

theorem Run.mine {space : Box} {n : Nat} {pr : Prog} {F L : RangeList} {f : Option Filter} {k : Call → Bool}
    (hF : Run space n none pr F) (hL : Run space n f pr L) (hk : ∀ c ∈ pr.calls, keepO f c = some (k c))
    (hfl : ∀ c ∈ pr.calls, Flat c.tr) (good : GoodList n F.tr) {i : Nat} (hi : i < n)
    (hown : ∀ c ∈ pr.calls, c.task = i → k c = true) :
    mine i L.tr = mine i F.tr := by
  obtain ⟨M, pM, gM, _, ltM⟩ := hF.pre (k := fun _ => true) (fun _ _ => rfl) hfl
  obtain ⟨M', pM', gM', _, ltM'⟩ := hL.pre hk hfl
  have fF := fin_of_pre pM gM ltM
  have eS : pr.calls.filter (fun _ => true) = pr.calls := by simp
  rw [eS] at pM fF
  unfold Sto.mine
  rw [own_filter gM hi, own_filter gM' hi]
  congr 1
  symm
  refine own_eq pM pM' ?_ ?_
  · have : (pr.calls.map Call.tr).filter (fun t => decide (t.task = i)) =
        ((pr.calls.filter k).map Call.tr).filter (fun t => decide (t.task = i)) := by
      rw [List.filter_map, List.filter_map, List.filter_filter]
      congr 1
      apply List.filter_congr
      intro c hc
      simp only [Function.comp]
      by_cases hci : c.tr.task = i
      · simp [hci, hown c hc hci]
      · simp [hci]
    rw [this]
  · intro hc a ha b hb hai hbi htag hlo
    have hd : (F.tr.map TR.key).Pairwise
        (fun a b => a.1 = b.1 → a.2.2.hi.x ≤ b.2.2.lo.x ∨ b.2.2.hi.x ≤ a.2.2.lo.x) := List.pairwise_map.2 good.dis
    have hd' := ((fF.plain hc).pairwise_iff (R := fun a b => a.1 = b.1 → a.2.2.hi.x ≤ b.2.2.lo.x ∨ b.2.2.hi.x ≤ a.2.2.lo.x)
      (fun {a b} h e => (h e.symm).symm)).1 hd
    have goodS := List.pairwise_map.1 hd'
    by_contra hne
    have hcase : a.box.hi.x ≤ b.box.lo.x ∨ b.box.hi.x ≤ a.box.lo.x :=
      pw_cases goodS (fun _ _ h e => (h e.symm).symm) ha hb hne (hai.trans hbi.symm)
    obtain ⟨c1, hc1, rfl⟩ := List.mem_map.1 ha
    obtain ⟨c2, hc2, rfl⟩ := List.mem_map.1 hb
    have := (hfl c1 hc1).2.2.2.2.2
    have := (hfl c2 hc2).2.2.2.2.2
    omega

theorem Run.slice {space : Box} {n : Nat} {pr : Prog} {L : RangeList} {f : Option Filter} {k : Call → Bool}
    (hL : Run space n f pr L) (hk : ∀ c ∈ pr.calls, keepO f c = some (k c)) (hfl : ∀ c ∈ pr.calls, Flat c.tr)
    {i : Nat} (hi : i < n) : RangeList.slice L i = some (Sto.mine i L.tr) ∧ L.tidCount = n := by
  obtain ⟨M, _, g, ht, _⟩ := hL.pre hk hfl
  have hl : (grp pr M n).length = n := by simp [grp]
  unfold RangeList.slice
  rw [g.offk i (by omega), g.offk (i+1) (by omega)]
  refine ⟨?_, ht⟩
  have := flatten_slice (grp pr M n) i (by omega)
  simp only [g.tr, Option.some.injEq]
  rw [this]
  have e := own_filter g hi
  rw [g.tr] at e
  unfold Sto.mine
  rw [e]
  simp [grp]

theorem ownPairs_slice {L : RangeList} {i : Nat} {o : List (Int × Int)} (h : ownPairs L i = some o) :
    ∃ l, RangeList.slice L i = some l ∧ o = ends l := by
  unfold ownPairs at h
  unfold RangeList.slice
  cases ea : L.off[i]? with
  | none => simp [ea] at h
  | some a =>
    cases eb : L.off[i+1]? with
    | none => simp [ea, eb] at h
    | some b =>
      simp only [ea, eb] at h
      refine ⟨_, rfl, ?_⟩
      split at h
      · exact (Option.some.inj h).symm
      · cases h

/-! ### Invariant of executions -/

/-- `L` holds the own ranges of process `i`. -/
def MyRun (sb : Nat → Box) (p : Part) (i : Nat) (L : RangeList) : Prop :=
  p.myid = some i ∧ (Run (sb p.space) p.n none p.prog L ∨ Run (sb p.space) p.n (some (.tid (some i))) p.prog L)

/-- Same object apart from the stored lists. -/
def Same (p q : Part) : Prop := p.space = q.space ∧ p.n = q.n ∧ p.myid = q.myid ∧ p.prog = q.prog

/-- How the list of an entry for the intersection with `q` was built. -/
def InterOK (sb : Nat → Box) (p q : Part) (same : Bool) (L : RangeList) : Prop :=
  ∃ L1 L2 i j o1 o2, MyRun sb p i L1 ∧ MyRun sb q j L2 ∧ ownPairs L1 i = some o1 ∧ ownPairs L2 j = some o2 ∧
    Run (sb p.space) p.n (some (mkIdxFilter o1 (if same then [] else o2))) p.prog L

theorem MyRun.congr {sb : Nat → Box} {p q : Part} {i : Nat} {L : RangeList} (h : Same p q) (hm : MyRun sb p i L) : MyRun sb q i L := by
  obtain ⟨h1, h2, h3, h4⟩ := h
  unfold MyRun at *
  rw [← h1, ← h2, ← h3, ← h4]; exact hm

theorem InterOK.congr {sb : Nat → Box} {p q p' q' : Part} {s : Bool} {L : RangeList} (hp : Same p p') (hq : Same q q')
    (h : InterOK sb p q s L) : InterOK sb p' q' s L := by
  obtain ⟨L1, L2, i, j, o1, o2, m1, m2, e1, e2, hr⟩ := h
  refine ⟨L1, L2, i, j, o1, o2, m1.congr hp, m2.congr hq, e1, e2, ?_⟩
  obtain ⟨h1, h2, _, h4⟩ := hp
  rw [← h1, ← h2, ← h4]; exact hr

def EntryOK (sb : Nat → Box) (al : List Nat) (h : Heap) (a : Nat) (p : Part) (e : Entry) : Prop :=
  match e.info with
  | .full => Run (sb p.space) p.n none p.prog e.ranges
  | .single t => p.myid = some t ∧ Run (sb p.space) p.n (some (.tid (some t))) p.prog e.ranges
  | .inter b => b ∈ al ∧ ∀ q, h b = some q → InterOK sb p q (decide (a = b)) e.ranges

def Inv (sb : Nat → Box) (al : List Nat) (h : Heap) : Prop :=
  ∀ a p, h a = some p → a ∈ al ∧ ∀ e ∈ p.entries, EntryOK sb al h a p e

/-- No object of `h'` is a new one at an address used before. -/
def Keeps (al : List Nat) (h h' : Heap) : Prop :=
  ∀ b ∈ al, ∀ q, h' b = some q → ∃ q0, h b = some q0 ∧ Same q0 q

theorem EntryOK.step {sb : Nat → Box} {al al' : List Nat} {h h' : Heap} {a : Nat} {p p' : Part} {e : Entry}
    (hk : Keeps al h h') (hal : ∀ b ∈ al, b ∈ al') (hp : Same p p') (he : EntryOK sb al h a p e) : EntryOK sb al' h' a p' e := by
  obtain ⟨i, L⟩ := e
  cases i with
  | full =>
    obtain ⟨h1, h2, h3, h4⟩ := hp
    simp only [EntryOK] at *
    rw [← h1, ← h2, ← h4]; exact he
  | single t =>
    obtain ⟨h1, h2, h3, h4⟩ := hp
    simp only [EntryOK] at *
    rw [← h1, ← h2, ← h4, ← h3]; exact he
  | inter b =>
    simp only [EntryOK] at *
    refine ⟨hal b he.1, fun q hq => ?_⟩
    obtain ⟨q0, h0, hs⟩ := hk b he.1 q hq
    exact (he.2 q0 h0).congr hp hs

theorem Same.rfl (p : Part) : Same p p := ⟨_root_.rfl, _root_.rfl, _root_.rfl, _root_.rfl⟩

theorem myranges_run {sb : Nat → Box} {al : List Nat} {h : Heap} {a : Nat} {p : Part} {L : RangeList} {i : Nat}
    (he : ∀ e ∈ p.entries, EntryOK sb al h a p e) (hm : p.myid = some i) (hL : myranges p = some L) : MyRun sb p i L := by
  unfold myranges at hL
  rw [Option.map_eq_some_iff] at hL
  obtain ⟨⟨inf, L'⟩, hf, rfl⟩ := hL
  have hmem := List.mem_of_find?_eq_some hf
  have hprop := List.find?_some hf
  have := he _ hmem
  cases inf with
  | full => exact ⟨hm, Or.inl this⟩
  | single t =>
    simp only [EntryOK] at this
    have : t = i := by rw [this.1] at hm; exact Option.some.inj hm
    subst this
    exact ⟨hm, Or.inr (he _ hmem).2⟩
  | inter b => simp at hprop

theorem Inv.store {sb : Nat → Box} {al : List Nat} {h : Heap} (hI : Inv sb al h) {a : Nat} {p : Part} (ha : h a = some p)
    {i : Info} {L : RangeList} (hn : EntryOK sb al h a p ⟨i, L⟩) : Inv sb al (setP h a (some (addRanges p i L))) := by
  have hk : Keeps al h (setP h a (some (addRanges p i L))) := by
    intro b _ q hq
    unfold setP at hq
    split at hq
    · rename_i e; subst e
      cases hq
      exact ⟨p, ha, Same.rfl p⟩
    · exact ⟨q, hq, Same.rfl q⟩
  intro b q hq
  unfold setP at hq
  split at hq
  · rename_i e; subst e
    cases hq
    refine ⟨(hI b p ha).1, fun e he => ?_⟩
    rcases List.mem_cons.1 he with e' | he
    · subst e'; exact hn.step hk (fun _ h => h) (Same.rfl p)
    · exact ((hI b p ha).2 e he).step hk (fun _ h => h) (Same.rfl p)
  · exact ⟨(hI b q hq).1, fun e he => ((hI b q hq).2 e he).step hk (fun _ h => h) (Same.rfl q)⟩

theorem Exec.inv {sb : Nat → Box} {evs : List Ev} {h : Heap} (hx : Exec sb evs h) (hn : (newAddrs evs).Nodup) :
    Inv sb (newAddrs evs) h := by
  induction hx with
  | nil => intro a p h; cases h
  | @cons evs h h' e hx hs ih =>
    cases hs with
    | @new a p ha he =>
      have e1 : newAddrs (Ev.new a :: evs) = a :: newAddrs evs := rfl
      rw [e1] at hn ⊢
      rw [List.nodup_cons] at hn
      have hI := ih hn.2
      have hk : Keeps (newAddrs evs) h (setP h a (some p)) := by
        intro b hb q hq
        unfold setP at hq
        split at hq
        · rename_i e; subst e; exact absurd hb hn.1
        · exact ⟨q, hq, Same.rfl q⟩
      intro b q hq
      unfold setP at hq
      split at hq
      · rename_i e; subst e; cases hq
        refine ⟨List.mem_cons_self, fun e' he' => ?_⟩
        rw [he] at he'; cases he'
      · exact ⟨List.mem_cons_of_mem _ (hI b q hq).1,
          fun e he => ((hI b q hq).2 e he).step hk (fun _ h => List.mem_cons_of_mem _ h) (Same.rfl q)⟩
    | @free a p ha =>
      have hI := ih hn
      have hk : Keeps (newAddrs evs) h (setP h a none) := by
        intro b hb q hq
        unfold setP at hq
        split at hq
        · cases hq
        · exact ⟨q, hq, Same.rfl q⟩
      intro b q hq
      unfold setP at hq
      split at hq
      · cases hq
      · exact ⟨(hI b q hq).1, fun e he => ((hI b q hq).2 e he).step hk (fun _ h => h) (Same.rfl q)⟩
    | @all a p L ha hr => exact (ih hn).store ha hr
    | @my a t p L ha hm hr => exact (ih hn).store ha ⟨hm, hr⟩
    | outside ha hm => exact ih hn
    | @inter a b p q f L ha hb hf hr =>
      have hI := ih hn
      refine hI.store ha ?_
      refine ⟨(hI b q hb).1, fun q' hq' => ?_⟩
      have : q' = q := by rw [hb] at hq'; exact (Option.some.inj hq').symm
      subst this
      unfold interFilter at hf
      split at hf
      · split at hf
        · rename_i hm1 hm2 hi1 hi2
          split at hf
          · rename_i e1 e2
            cases hf
            exact ⟨_, _, _, _, _, _, myranges_run (hI a p ha).2 hi1 hm1, myranges_run (hI b q' hb).2 hi2 hm2, e1, e2, hr⟩
          · cases hf
        · cases hf
      · cases hf

theorem MyRun.spec {sb : Nat → Box} {p : Part} {i : Nat} {L F : RangeList} (h : MyRun sb p i L)
    (hF : Run (sb p.space) p.n none p.prog F) (h1 : p.prog.OneD) (good : GoodList p.n F.tr) (hi : i < p.n) :
    Sto.mine i L.tr = Sto.mine i F.tr ∧ RangeList.slice L i = some (Sto.mine i F.tr) ∧ L.tidCount = p.n := by
  obtain ⟨_, hr | hr⟩ := h
  · have e := hF.mine hr (k := fun _ => true) (fun _ _ => rfl) h1.flat good hi (fun _ _ _ => rfl)
    have s := hr.slice (k := fun _ => true) (fun _ _ => rfl) h1.flat hi
    exact ⟨e, by rw [s.1, e], s.2⟩
  · have hk : ∀ c ∈ p.prog.calls, keepO (some (Filter.tid (some i))) c = some (decide (i = c.task)) := fun _ _ => rfl
    have e := hF.mine hr hk h1.flat good hi (fun c _ hc => by simp [hc])
    have s := hr.slice hk h1.flat hi
    exact ⟨e, by rw [s.1, e], s.2⟩

theorem Run.empty_calls {space : Box} {n : Nat} {pr : Prog} {L : RangeList}
    (h : Run space n (some (.idx none none)) pr L) : pr.calls = [] := by
  cases h with
  | ranges cs l s hb hr hs hf =>
    unfold Prog.calls
    rw [hb]
    cases cs with
    | nil => rfl
    | cons c cs => cases hr
  | singles as l s hb hr hne hp hs hf =>
    unfold Prog.calls
    rw [hb]
    cases as with
    | nil => rfl
    | cons a as => cases hr
  | noSingles as hb hr hf =>
    unfold Prog.calls
    rw [hb]
    cases as with
    | nil => rfl
    | cons a as => cases hr

theorem inter_enough {sb : Nat → Box} {al : List Nat} {h : Heap} (hI : Inv sb al h) {a b : Nat} {p q : Part}
    (ha : h a = some p) (hb : h b = some q) {i : Nat} (hn : q.n = p.n) (hip : p.myid = some i) (hiq : q.myid = some i)
    (hi : i < p.n) {F T : RangeList} (hF : Run (sb p.space) p.n none p.prog F) (hT : Run (sb q.space) q.n none q.prog T)
    (gF : GoodList p.n F.tr) (gT : GoodList p.n T.tr) (dp : p.prog.OneD) (dq : q.prog.OneD)
    (aF : SortedDisjoint (ends (Sto.mine i F.tr))) (aT : SortedDisjoint (ends (Sto.mine i T.tr)))
    {own : List TR} (ho : ∀ o, o ∈ own ↔ o ∈ F.tr ∨ o ∈ T.tr)
    {L : RangeList} (hL : interLookup p b = some L) : Enough i own F.tr L.tr := by
  unfold interLookup at hL
  rw [Option.map_eq_some_iff] at hL
  obtain ⟨⟨inf, L'⟩, hf, rfl⟩ := hL
  have hmem := List.mem_of_find?_eq_some hf
  have hprop := List.find?_some hf
  have he := (hI a p ha).2 _ hmem
  cases inf with
  | full =>
    exact hF.enough he (k := fun _ => true) (fun _ _ => rfl) dp.flat gF hi own (fun r hr _ => (ho r).2 (Or.inl hr))
      (fun _ _ _ _ _ _ _ _ => rfl)
  | single t => simp at hprop
  | inter b' =>
    have : b' = b := by simpa using hprop
    subst this
    obtain ⟨L1, L2, i', j', o1, o2, m1, m2, e1, e2, hr⟩ := he.2 q hb
    have ei : i' = i := by have := m1.1; rw [hip] at this; exact (Option.some.inj this).symm
    have ej : j' = i := by have := m2.1; rw [hiq] at this; exact (Option.some.inj this).symm
    rw [ei] at m1 e1
    rw [ej] at m2 e2
    obtain ⟨l1, c1, d1⟩ := ownPairs_slice e1
    obtain ⟨l2, c2, d2⟩ := ownPairs_slice e2
    rw [(m1.spec hF dp gF hi).2.1] at c1
    rw [(m2.spec hT dq (by rw [hn]; exact gT) (by omega)).2.1] at c2
    cases c1
    cases c2
    -- own ranges of both are in the filter
    have htouch : ∀ c : Call, ∀ o ∈ own, o.task = i → ∀ x, c.tr.has x → o.has x →
        Touches o1 c.box ∨ Touches (if decide (a = b') = true then [] else o2) c.box := by
      intro c o hoo hoi x hx hox
      have inF : o ∈ F.tr → Touches o1 c.box := by
        intro hm
        refine ⟨(o.box.lo.x, o.box.hi.x), ?_, x, hox.1, hox.2, hx.1, hx.2⟩
        rw [d1]
        exact List.mem_map.2 ⟨o, List.mem_filter.2 ⟨hm, by simp [hoi]⟩, rfl⟩
      rcases (ho o).1 hoo with hm | hm
      · exact Or.inl (inF hm)
      · by_cases hab : a = b'
        · subst hab
          have : p = q := by rw [ha] at hb; exact Option.some.inj hb
          subst this
          have e := hF.mine hT (k := fun _ => true) (fun _ _ => rfl) dp.flat gF hi (fun _ _ _ => rfl)
          have hm' : o ∈ Sto.mine i F.tr := by
            rw [← e]; exact List.mem_filter.2 ⟨hm, by simp [hoi]⟩
          exact Or.inl (inF (List.mem_filter.1 hm').1)
        · refine Or.inr ⟨(o.box.lo.x, o.box.hi.x), ?_, x, hox.1, hox.2, hx.1, hx.2⟩
          rw [if_neg (by simpa using hab), d2]
          exact List.mem_map.2 ⟨o, List.mem_filter.2 ⟨hm, by simp [hoi]⟩, rfl⟩
    have so1 : SortedDisjoint o1 := by rw [d1]; exact aF
    have so2 : SortedDisjoint (if decide (a = b') = true then [] else o2) := by
      split
      · exact ⟨List.Pairwise.nil, fun a ha => by cases ha⟩
      · rw [d2]; exact aT
    generalize (if decide (a = b') = true then [] else o2) = o2' at hr htouch so2
    by_cases hne : o1 ≠ [] ∨ o2' ≠ []
    · classical
      refine hF.enough hr (k := fun c => decide (Touches o1 c.box ∨ Touches o2' c.box)) ?_ dp.flat gF hi own
        (fun r hr _ => (ho r).2 (Or.inl hr)) ?_
      · intro c hc
        have := mkIdxFilter_keep so1 so2 hne (dp c hc).2.2.2.2
        simp only [keepO]
        rw [this]
      · intro c _ o hoo hoi x hx hox
        simp only [decide_eq_true_eq]
        exact htouch c o hoo hoi x hx hox
    · have h1 : o1 = [] := by by_contra c; exact hne (Or.inl c)
      have h2 : o2' = [] := by by_contra c; exact hne (Or.inr c)
      rw [h1, h2] at hr
      have hcalls := Run.empty_calls hr
      refine hF.enough hr (k := fun _ => true) ?_ dp.flat gF hi own (fun r hr _ => (ho r).2 (Or.inl hr))
        (fun _ _ _ _ _ _ _ _ => rfl)
      intro c hc
      rw [hcalls] at hc; cases hc

/-! ### The property -/

/-- **C49.** A list returned as holding all ranges is the list of any unfiltered
run of the partitioner, with its offsets. -/
theorem C49_allranges {sb : Nat → Box} {evs : List Ev} {h : Heap} (hx : Exec sb evs h) (hnew : (newAddrs evs).Nodup)
    {a : Nat} {p : Part} (ha : h a = some p) (dp : p.prog.OneD) {F : RangeList}
    (hF : Run (sb p.space) p.n none p.prog F) (good : GoodList p.n F.tr) {L : RangeList} (hL : allranges p = some L) :
    L.tr = F.tr ∧ ∀ i < p.n, RangeList.slice L i = some (mine i F.tr) := by
  have he := (hx.inv hnew a p ha).2
  unfold allranges at hL
  rw [Option.map_eq_some_iff] at hL
  obtain ⟨⟨inf, L'⟩, hf, rfl⟩ := hL
  have hmem := List.mem_of_find?_eq_some hf
  have hprop := List.find?_some hf
  have hi : inf = .full := by simpa using hprop
  subst hi
  have hr : Run (sb p.space) p.n none p.prog L' := he _ hmem
  have em : ∀ i < p.n, mine i L'.tr = mine i F.tr := fun i hi =>
    hF.mine hr (k := fun _ => true) (fun _ _ => rfl) dp.flat good hi (fun _ _ _ => rfl)
  have fin : ∀ {L : RangeList}, Run (sb p.space) p.n none p.prog L → groupsSI L.tr 0 p.n = (List.range' 0 p.n).map (fun k => mine k L.tr) ∧
      (groupsSI L.tr 0 p.n).flatten = L.tr := by
    intro L hr
    obtain ⟨M, pM, gM, _, ltM⟩ := hr.pre (k := fun _ => true) (fun _ _ => rfl) dp.flat
    have f := fin_of_pre pM gM ltM
    exact ⟨rfl, groupsSI_flatten p.n 0 L.tr f.sorted (fun _ _ => Nat.zero_le _) (fun t ht => by have := f.lt t ht; omega)⟩
  refine ⟨?_, fun i hi => ?_⟩
  · obtain ⟨e1, e2⟩ := fin hr
    obtain ⟨f1, f2⟩ := fin hF
    rw [← e2, ← f2, e1, f1]
    congr 1
    apply List.map_congr_left
    intro k hk
    exact em k (by rw [List.mem_range'] at hk; omega)
  · rw [(hr.slice (k := fun _ => true) (fun _ _ => rfl) dp.flat hi).1, em i hi]

/-- **C49.** A list returned as holding the own ranges holds exactly the own
ranges of an unfiltered run, with the same map numbers, at its offsets. -/
theorem C49_myranges {sb : Nat → Box} {evs : List Ev} {h : Heap} (hx : Exec sb evs h) (hnew : (newAddrs evs).Nodup)
    {a : Nat} {p : Part} (ha : h a = some p) (dp : p.prog.OneD) {i : Nat} (hm : p.myid = some i) (hi : i < p.n)
    {F : RangeList} (hF : Run (sb p.space) p.n none p.prog F) (good : GoodList p.n F.tr) {L : RangeList}
    (hL : myranges p = some L) :
    RangeList.slice L i = some (mine i F.tr) ∧ mine i L.tr = mine i F.tr :=
  have := (myranges_run (hx.inv hnew a p ha).2 hm hL).spec hF dp good hi
  ⟨this.2.1, this.1⟩

/-- **C49, partial.** The lists found for the intersection of two partitionings
give the same transition as the lists of unfiltered runs of both partitioners.
Required: no partitioning got the address of a freed one, and the own ranges of
the process are ascending in both.  (False otherwise, see `C49_reused_address`
and `C09_index_filter_drops_tags`.) -/
theorem C49_transition_partial {sb : Nat → Box} {evs : List Ev} {h : Heap} (hx : Exec sb evs h)
    (hnew : (newAddrs evs).Nodup) {a b : Nat} {p q : Part} (ha : h a = some p) (hb : h b = some q) (hn : q.n = p.n)
    {i : Nat} (hip : p.myid = some i) (hiq : q.myid = some i) (hi : i < p.n) (dp : p.prog.OneD) (dq : q.prog.OneD)
    {F T : RangeList} (hF : Run (sb p.space) p.n none p.prog F) (hT : Run (sb q.space) q.n none q.prog T)
    (ok : TransOK p.n F.tr T.tr) (aF : SortedDisjoint (ends (mine i F.tr))) (aT : SortedDisjoint (ends (mine i T.tr)))
    {LF LT : RangeList} (hLF : interranges p q b = some (some LF)) (hLT : interranges q p a = some (some LT))
    (redOp : Nat) {s s' : List Border} (hs : IsBorderSort s (transBorders F.tr T.tr))
    (hs' : IsBorderSort s' (transBorders LF.tr LT.tr)) :
    (calcAddReductions p.n redOp i s').map (TSt.res p.n i) = (calcAddReductions p.n redOp i s).map (TSt.res p.n i) := by
  have hI := hx.inv hnew
  have l1 : interLookup p b = some LF := by
    unfold interranges at hLF
    split at hLF
    · exact Option.some.inj hLF
    · cases hLF
  have l2 : interLookup q a = some LT := by
    unfold interranges at hLT
    split at hLT
    · exact Option.some.inj hLT
    · cases hLT
  have eF : Enough i (F.tr ++ T.tr) F.tr LF.tr :=
    inter_enough hI ha hb hn hip hiq hi hF hT ok.goodF ok.goodT dp dq aF aT (fun o => List.mem_append) l1
  have eT : Enough i (F.tr ++ T.tr) T.tr LT.tr :=
    inter_enough hI hb ha hn.symm hiq hip (by omega) hT hF (by rw [hn]; exact ok.goodT) (by rw [hn]; exact ok.goodF) dq dp aT aF
      (fun o => by rw [List.mem_append]; exact Or.comm) l2
  exact C17_filtered_lists_suffice redOp ok eF eT hs hs'

/-- As `C49_transition_partial`, in the form used by C17 and C18. -/
theorem C49_calculated_partial {sb : Nat → Box} {evs : List Ev} {h : Heap} (hx : Exec sb evs h)
    (hnew : (newAddrs evs).Nodup) {a b : Nat} {p q : Part} (ha : h a = some p) (hb : h b = some q) (hn : q.n = p.n)
    {i : Nat} (hip : p.myid = some i) (hiq : q.myid = some i) (hi : i < p.n) (dp : p.prog.OneD) (dq : q.prog.OneD)
    {F T : RangeList} (hF : Run (sb p.space) p.n none p.prog F) (hT : Run (sb q.space) q.n none q.prog T)
    (ok : TransOK p.n F.tr T.tr) (aF : SortedDisjoint (ends (mine i F.tr))) (aT : SortedDisjoint (ends (mine i T.tr)))
    {LF LT : RangeList} (hLF : interLookup p b = some LF) (hLT : interLookup q a = some LT)
    {redOp : Nat} {s' : List Border} (hs' : IsBorderSort s' (transBorders LF.tr LT.tr)) {st : TSt}
    (hc : calcAddReductions p.n redOp i s' = some st) : Calculated p.n redOp F.tr T.tr i LF.tr LT.tr st := by
  have hI := hx.inv hnew
  exact ⟨inter_enough hI ha hb hn hip hiq hi hF hT ok.goodF ok.goodT dp dq aF aT (fun o => List.mem_append) hLF,
    inter_enough hI hb ha hn.symm hiq hip (by omega) hT hF (by rw [hn]; exact ok.goodT) (by rw [hn]; exact ok.goodF) dq dp aT aF
      (fun o => by rw [List.mem_append]; exact Or.comm) hLT, s', hs', hc⟩

/-! ### Lookups after storing -/

/-- The lookup matching an event returns a list. -/
def Found (h : Heap) (e : Ev) : Prop :=
  match e with
  | .all a => ∃ p, h a = some p ∧ (allranges p).isSome
  | .my a => ∃ p, h a = some p ∧ (p.myid.isSome → (myranges p).isSome)
  | .inter a b => ∃ p, h a = some p ∧ (interLookup p b).isSome
  | _ => True

/-- An address an event refers to as the partitioning changed. -/
def Ev.target : Ev → Nat
  | .new a | .free a | .all a | .my a | .inter a _ => a

/-- **C49.** After ranges are stored, the lookup for them succeeds. -/
theorem C49_found_after_store {sb : Nat → Box} {h h' : Heap} {e : Ev} (hs : Step sb h e h') : Found h' e := by
  cases hs with
  | new ha he => exact True.intro
  | free ha => exact True.intro
  | all ha hr =>
    refine ⟨_, by unfold setP; rw [if_pos rfl], ?_⟩
    simp [allranges, addRanges]
  | my ha hm hr =>
    refine ⟨_, by unfold setP; rw [if_pos rfl], fun _ => ?_⟩
    simp [myranges, addRanges, hm]
  | outside ha hm => exact ⟨_, ha, by rw [hm]; intro h; cases h⟩
  | inter ha hb hf hr =>
    refine ⟨_, by unfold setP; rw [if_pos rfl], ?_⟩
    simp [interLookup, addRanges]

theorem find_cons_isSome {α β : Type} {P : α → Bool} {f : α → β} {l : List α} (x : α)
    (h : ((l.find? P).map f).isSome) : (((x :: l).find? P).map f).isSome := by
  simp only [Option.isSome_map] at *
  rw [List.find?_cons]
  split
  · rfl
  · exact h

theorem Found.add {h : Heap} {e : Ev} (hf : Found h e) {a : Nat} {p : Part} (ha : h a = some p) (i : Info) (L : RangeList) :
    Found (setP h a (some (addRanges p i L))) e := by
  have key : ∀ c q, h c = some q → ∃ q', setP h a (some (addRanges p i L)) c = some q' ∧ q'.myid = q.myid ∧
      ((allranges q).isSome → (allranges q').isSome) ∧ ((myranges q).isSome → (myranges q').isSome) ∧
      ∀ b, (interLookup q b).isSome → (interLookup q' b).isSome := by
    intro c q hq
    by_cases hc : c = a
    · subst hc
      have : p = q := by rw [ha] at hq; exact Option.some.inj hq
      subst this
      refine ⟨addRanges p i L, by unfold setP; rw [if_pos rfl], rfl, ?_, ?_, ?_⟩
      · exact fun h => find_cons_isSome _ h
      · exact fun h => find_cons_isSome _ h
      · exact fun b h => find_cons_isSome _ h
    · exact ⟨q, by unfold setP; rw [if_neg hc]; exact hq, rfl, id, id, fun _ => id⟩
  cases e with
  | new _ => exact True.intro
  | free _ => exact True.intro
  | all c =>
    obtain ⟨q, hq, hl⟩ := hf
    obtain ⟨q', h1, h2, h3, h4, h5⟩ := key c q hq
    exact ⟨q', h1, h3 hl⟩
  | my c =>
    obtain ⟨q, hq, hl⟩ := hf
    obtain ⟨q', h1, h2, h3, h4, h5⟩ := key c q hq
    exact ⟨q', h1, fun hm => h4 (hl (by rw [← h2]; exact hm))⟩
  | inter c b =>
    obtain ⟨q, hq, hl⟩ := hf
    obtain ⟨q', h1, h2, h3, h4, h5⟩ := key c q hq
    exact ⟨q', h1, h5 b hl⟩

/-- **C49.** A stored list stays available until the partitioning is freed. -/
theorem C49_found_until_free {sb : Nat → Box} {h h' : Heap} {e e' : Ev} (hf : Found h e) (hs : Step sb h e' h')
    (hne : e' ≠ .free e.target) : Found h' e := by
  have other : ∀ a x, a ≠ e.target → Found (setP h a x) e := by
    intro a x hat
    cases e with
    | new _ => exact True.intro
    | free _ => exact True.intro
    | all c =>
      obtain ⟨q, hq, hl⟩ := hf
      exact ⟨q, by unfold setP; rw [if_neg (fun e => hat e.symm)]; exact hq, hl⟩
    | my c =>
      obtain ⟨q, hq, hl⟩ := hf
      exact ⟨q, by unfold setP; rw [if_neg (fun e => hat e.symm)]; exact hq, hl⟩
    | inter c b =>
      obtain ⟨q, hq, hl⟩ := hf
      exact ⟨q, by unfold setP; rw [if_neg (fun e => hat e.symm)]; exact hq, hl⟩
  cases hs with
  | @new a p ha he =>
    by_cases hat : a = e.target
    · cases e with
      | new _ => exact True.intro
      | free _ => exact True.intro
      | all c => obtain ⟨q, hq, _⟩ := hf; cases hat; rw [Ev.target, hq] at ha; cases ha
      | my c => obtain ⟨q, hq, _⟩ := hf; cases hat; rw [Ev.target, hq] at ha; cases ha
      | inter c b => obtain ⟨q, hq, _⟩ := hf; cases hat; rw [Ev.target, hq] at ha; cases ha
    · exact other a _ hat
  | @free a p ha => exact other a _ (fun h => hne (by rw [h]))
  | all ha hr => exact hf.add ha _ _
  | my ha hm hr => exact hf.add ha _ _
  | outside ha hm => exact hf
  | inter ha hb hfl hr => exact hf.add ha _ _

/-! ### Example and failing cases -/

/-- One space with 12 indices. -/
def exSb : Nat → Box := fun _ => iv 0 12

/-- Three processes; process 0 appends its part in two pieces which get merged. -/
def exP : Prog := ⟨.ranges [⟨2, iv 8 12, 0⟩, ⟨0, iv 2 4, 0⟩, ⟨0, iv 0 2, 0⟩, ⟨1, iv 4 8, 0⟩], true⟩

/-- Shifted. -/
def exQ : Prog := ⟨.ranges [⟨0, iv 2 6, 0⟩, ⟨1, iv 6 12, 0⟩, ⟨2, iv 0 2, 0⟩], false⟩

def exPart (pr : Prog) (es : List Entry) : Part := ⟨0, 3, some 0, pr, es⟩

/-- Own ranges of process 0, full lists, and lists for the transition. -/
def exPmy : RangeList := { tidCount := 3, tr := [⟨0, 0, iv 0 4, 0⟩], off := [0, 1, 1, 1] }
def exQmy : RangeList := { tidCount := 3, tr := [⟨0, 0, iv 2 6, 0⟩], off := [0, 1, 1, 1] }
def exPfull : RangeList :=
  { tidCount := 3, tr := [⟨0, 0, iv 0 4, 0⟩, ⟨1, 0, iv 4 8, 0⟩, ⟨2, 0, iv 8 12, 0⟩], off := [0, 1, 2, 3] }
def exQfull : RangeList :=
  { tidCount := 3, tr := [⟨0, 0, iv 2 6, 0⟩, ⟨1, 0, iv 6 12, 0⟩, ⟨2, 0, iv 0 2, 0⟩], off := [0, 1, 2, 3] }
def exPq : RangeList := { tidCount := 3, tr := [⟨0, 0, iv 0 4, 0⟩, ⟨1, 0, iv 4 8, 0⟩], off := [0, 1, 2, 2] }
def exQp : RangeList := { tidCount := 3, tr := [⟨0, 0, iv 2 6, 0⟩, ⟨2, 0, iv 0 2, 0⟩], off := [0, 1, 1, 2] }

instance (a b : TR) : Decidable (trLe a b) := by unfold trLe; infer_instance

theorem exPfull_run : Run (iv 0 12) 3 none exP exPfull :=
  .ranges _ [⟨2, 0, iv 8 12, 0⟩, ⟨0, 0, iv 2 4, 0⟩, ⟨0, 0, iv 0 2, 0⟩, ⟨1, 0, iv 4 8, 0⟩]
    [⟨0, 0, iv 0 2, 0⟩, ⟨0, 0, iv 2 4, 0⟩, ⟨1, 0, iv 4 8, 0⟩, ⟨2, 0, iv 8 12, 0⟩] rfl
    (by decide) ⟨by decide, by decide⟩ (by decide)

theorem exQfull_run : Run (iv 0 12) 3 none exQ exQfull :=
  .ranges _ exQfull.tr exQfull.tr rfl (by decide) ⟨List.Perm.refl _, by decide⟩ (by decide)

theorem exPmy_run : Run (iv 0 12) 3 (some (.tid (some 0))) exP exPmy :=
  .ranges _ [⟨0, 0, iv 2 4, 0⟩, ⟨0, 0, iv 0 2, 0⟩] [⟨0, 0, iv 0 2, 0⟩, ⟨0, 0, iv 2 4, 0⟩] rfl
    (by decide) ⟨by decide, by decide⟩ (by decide)

theorem exQmy_run : Run (iv 0 12) 3 (some (.tid (some 0))) exQ exQmy :=
  .ranges _ exQmy.tr exQmy.tr rfl (by decide) ⟨List.Perm.refl _, by decide⟩ (by decide)

theorem exPq_run : Run (iv 0 12) 3 (some (mkIdxFilter [(0, 4)] [(2, 6)])) exP exPq :=
  .ranges _ [⟨0, 0, iv 2 4, 0⟩, ⟨0, 0, iv 0 2, 0⟩, ⟨1, 0, iv 4 8, 0⟩]
    [⟨0, 0, iv 0 2, 0⟩, ⟨0, 0, iv 2 4, 0⟩, ⟨1, 0, iv 4 8, 0⟩] rfl
    (by decide +kernel) ⟨by decide, by decide⟩ (by decide)

theorem exQp_run : Run (iv 0 12) 3 (some (mkIdxFilter [(2, 6)] [(0, 4)])) exQ exQp :=
  .ranges _ exQp.tr exQp.tr rfl (by decide +kernel) ⟨List.Perm.refl _, by decide⟩ (by decide)

def exH1 : Heap := setP (fun _ => none) 7 (some (exPart exP []))
def exH2 : Heap := setP exH1 8 (some (exPart exQ []))
def exH3 : Heap := setP exH2 7 (some (exPart exP [⟨.single 0, exPmy⟩]))
def exH4 : Heap := setP exH3 8 (some (exPart exQ [⟨.single 0, exQmy⟩]))
def exH5 : Heap := setP exH4 7 (some (exPart exP [⟨.inter 8, exPq⟩, ⟨.single 0, exPmy⟩]))
def exH6 : Heap := setP exH5 8 (some (exPart exQ [⟨.inter 7, exQp⟩, ⟨.single 0, exQmy⟩]))

/-- Own ranges of two partitionings and the lists for the transition get stored. -/
theorem exExec : Exec exSb [.inter 8 7, .inter 7 8, .my 8, .my 7, .new 8, .new 7] exH6 :=
  have s1 : Step exSb (fun _ => none) (.new 7) exH1 := .new rfl rfl
  have s2 : Step exSb exH1 (.new 8) exH2 := .new rfl rfl
  have s3 : Step exSb exH2 (.my 7) exH3 := .my (p := exPart exP []) (t := 0) rfl rfl exPmy_run
  have s4 : Step exSb exH3 (.my 8) exH4 := .my (p := exPart exQ []) (t := 0) rfl rfl exQmy_run
  have s5 : Step exSb exH4 (.inter 7 8) exH5 :=
    .inter (p := exPart exP [⟨.single 0, exPmy⟩]) (q := exPart exQ [⟨.single 0, exQmy⟩])
      (f := mkIdxFilter [(0, 4)] [(2, 6)]) rfl rfl rfl exPq_run
  have s6 : Step exSb exH5 (.inter 8 7) exH6 :=
    .inter (p := exPart exQ [⟨.single 0, exQmy⟩]) (q := exPart exP [⟨.inter 8, exPq⟩, ⟨.single 0, exPmy⟩])
      (f := mkIdxFilter [(2, 6)] [(0, 4)]) rfl rfl rfl exQp_run
  .cons (.cons (.cons (.cons (.cons (.cons .nil s1) s2) s3) s4) s5) s6

theorem exOK : TransOK 3 exPfull.tr exQfull.tr :=
  ⟨⟨by decide, by decide, by decide⟩, ⟨by decide, by decide, by decide⟩, by decide, by decide,
    fun r hr => by revert r; decide, fun r hr => by revert r; decide⟩

/-- All hypotheses of `C49_transition_partial` hold, with lists smaller than the full ones. -/
example : ∃ p q, exH6 7 = some p ∧ exH6 8 = some q ∧ (newAddrs [.inter 8 7, .inter 7 8, .my 8, .my 7, .new 8, .new 7]).Nodup ∧
    q.n = p.n ∧ p.myid = some 0 ∧ q.myid = some 0 ∧ p.prog.OneD ∧ q.prog.OneD ∧
    Run (exSb p.space) p.n none p.prog exPfull ∧ Run (exSb q.space) q.n none q.prog exQfull ∧
    SortedDisjoint (ends (mine 0 exPfull.tr)) ∧ SortedDisjoint (ends (mine 0 exQfull.tr)) ∧
    interranges p q 8 = some (some exPq) ∧ interranges q p 7 = some (some exQp) := by
  refine ⟨_, _, rfl, rfl, by decide, rfl, rfl, rfl, ?_, ?_, exPfull_run, exQfull_run, ?_, ?_, rfl, rfl⟩
  · unfold Prog.OneD; decide
  · unfold Prog.OneD; decide
  · unfold SortedDisjoint; decide
  · unfold SortedDisjoint; decide

/-! A partitioning allocated at the address of a freed one. -/

/-- Two processes with blocks, and the blocks exchanged. -/
def exA : Prog := ⟨.ranges [⟨0, iv 0 5, 0⟩, ⟨1, iv 5 10, 0⟩], false⟩
def exB : Prog := ⟨.ranges [⟨0, iv 5 10, 0⟩, ⟨1, iv 0 5, 0⟩], false⟩
def exAmy : RangeList := { tidCount := 2, tr := [⟨0, 0, iv 0 5, 0⟩], off := [0, 1, 1] }
def exBmy : RangeList := { tidCount := 2, tr := [⟨0, 0, iv 5 10, 0⟩], off := [0, 1, 1] }
def exAfull : RangeList := { tidCount := 2, tr := [⟨0, 0, iv 0 5, 0⟩, ⟨1, 0, iv 5 10, 0⟩], off := [0, 1, 2] }
def exBfull : RangeList := { tidCount := 2, tr := [⟨0, 0, iv 5 10, 0⟩, ⟨1, 0, iv 0 5, 0⟩], off := [0, 1, 2] }
def exPart2 (pr : Prog) (es : List Entry) : Part := ⟨0, 2, some 0, pr, es⟩

def exR1 : Heap := setP (fun _ => none) 7 (some (exPart2 exA []))
def exR2 : Heap := setP exR1 8 (some (exPart2 exA []))
def exR3 : Heap := setP exR2 7 (some (exPart2 exA [⟨.single 0, exAmy⟩]))
def exR4 : Heap := setP exR3 8 (some (exPart2 exA [⟨.single 0, exAmy⟩]))
def exR5 : Heap := setP exR4 7 (some (exPart2 exA [⟨.inter 8, exAmy⟩, ⟨.single 0, exAmy⟩]))
def exR6 : Heap := setP exR5 8 none
def exR7 : Heap := setP exR6 8 (some (exPart2 exB []))
def exR8 : Heap := setP exR7 8 (some (exPart2 exB [⟨.single 0, exBmy⟩]))
def exR9 : Heap := setP exR8 8 (some (exPart2 exB [⟨.inter 7, exBfull⟩, ⟨.single 0, exBmy⟩]))

/-- Violation: entries are found by the address of the other partitioning.  If it
was freed and a new partitioning got the same address, the list stored for the
old one is used: the calculation of the transition aborts, though it succeeds
with the lists of unfiltered runs. -/
theorem C49_reused_address : ∃ (evs : List Ev) (h : Heap) (p q : Part) (LF LT F T : RangeList) (s : List Border),
    Exec exSb evs h ∧ h 7 = some p ∧ h 8 = some q ∧ p.n = 2 ∧ q.n = 2 ∧ p.myid = some 0 ∧ q.myid = some 0 ∧
    Run (exSb p.space) 2 none p.prog F ∧ Run (exSb q.space) 2 none q.prog T ∧ TransOK 2 F.tr T.tr ∧
    interranges p q 8 = some (some LF) ∧ interranges q p 7 = some (some LT) ∧
    IsBorderSort s (transBorders F.tr T.tr) ∧ (calcAddReductions 2 0 0 s).isSome ∧
    ∀ s', IsBorderSort s' (transBorders LF.tr LT.tr) → calcAddReductions 2 0 0 s' = none := by
  have ra : Run (iv 0 12) 2 (some (.tid (some 0))) exA exAmy :=
    .ranges _ exAmy.tr exAmy.tr rfl (by decide) ⟨List.Perm.refl _, by decide⟩ (by decide)
  have rb : Run (iv 0 12) 2 (some (.tid (some 0))) exB exBmy :=
    .ranges _ exBmy.tr exBmy.tr rfl (by decide) ⟨List.Perm.refl _, by decide⟩ (by decide)
  have ria : Run (iv 0 12) 2 (some (mkIdxFilter [(0, 5)] [(0, 5)])) exA exAmy :=
    .ranges _ exAmy.tr exAmy.tr rfl (by decide +kernel) ⟨List.Perm.refl _, by decide⟩ (by decide)
  have rib : Run (iv 0 12) 2 (some (mkIdxFilter [(5, 10)] [(0, 5)])) exB exBfull :=
    .ranges _ exBfull.tr exBfull.tr rfl (by decide +kernel) ⟨List.Perm.refl _, by decide⟩ (by decide)
  have fa : Run (iv 0 12) 2 none exA exAfull :=
    .ranges _ exAfull.tr exAfull.tr rfl (by decide) ⟨List.Perm.refl _, by decide⟩ (by decide)
  have fb : Run (iv 0 12) 2 none exB exBfull :=
    .ranges _ exBfull.tr exBfull.tr rfl (by decide) ⟨List.Perm.refl _, by decide⟩ (by decide)
  have s1 : Step exSb (fun _ => none) (.new 7) exR1 := .new rfl rfl
  have s2 : Step exSb exR1 (.new 8) exR2 := .new rfl rfl
  have s3 : Step exSb exR2 (.my 7) exR3 := .my (p := exPart2 exA []) (t := 0) rfl rfl ra
  have s4 : Step exSb exR3 (.my 8) exR4 := .my (p := exPart2 exA []) (t := 0) rfl rfl ra
  have s5 : Step exSb exR4 (.inter 7 8) exR5 :=
    .inter (p := exPart2 exA [⟨.single 0, exAmy⟩]) (q := exPart2 exA [⟨.single 0, exAmy⟩])
      (f := mkIdxFilter [(0, 5)] [(0, 5)]) rfl rfl rfl ria
  have s6 : Step exSb exR5 (.free 8) exR6 := .free (p := exPart2 exA [⟨.single 0, exAmy⟩]) rfl
  have s7 : Step exSb exR6 (.new 8) exR7 := .new rfl rfl
  have s8 : Step exSb exR7 (.my 8) exR8 := .my (p := exPart2 exB []) (t := 0) rfl rfl rb
  have s9 : Step exSb exR8 (.inter 8 7) exR9 :=
    .inter (p := exPart2 exB [⟨.single 0, exBmy⟩]) (q := exPart2 exA [⟨.inter 8, exAmy⟩, ⟨.single 0, exAmy⟩])
      (f := mkIdxFilter [(5, 10)] [(0, 5)]) rfl rfl rfl rib
  refine ⟨_, exR9, _, _, exAmy, exBfull, exAfull, exBfull,
    [⟨0, 0, 0, 0, true, true⟩, ⟨0, 1, 0, 0, true, false⟩, ⟨5, 0, 0, 0, false, true⟩, ⟨5, 1, 0, 0, false, false⟩,
     ⟨5, 1, 0, 0, true, true⟩, ⟨5, 0, 0, 0, true, false⟩, ⟨10, 1, 0, 0, false, true⟩, ⟨10, 0, 0, 0, false, false⟩],
    .cons (.cons (.cons (.cons (.cons (.cons (.cons (.cons (.cons .nil s1) s2) s3) s4) s5) s6) s7) s8) s9,
    rfl, rfl, rfl, rfl, rfl, rfl, fa, fb, ?_, rfl, rfl, ⟨by decide, by decide⟩, by decide, ?_⟩
  · exact ⟨⟨by decide, by decide, by decide⟩, ⟨by decide, by decide, by decide⟩, by decide, by decide,
      fun r hr => by revert r; decide, fun r hr => by revert r; decide⟩
  · intro s' hs'
    have ok : TransOK 2 exAmy.tr exBfull.tr :=
      ⟨⟨by decide, by decide, by decide⟩, ⟨by decide, by decide, by decide⟩, by decide, by decide,
        fun r hr => by revert r; decide, fun r hr => by revert r; decide⟩
    have e := C17_completes_iff 0 ok 0 hs'
    cases hc : calcAddReductions 2 0 0 s' with
    | none => rfl
    | some st =>
      rw [hc] at e
      exact absurd (e.1 rfl 5 (by decide)) (by decide)

/-- Violation: with a partitioner asking for merging, own ranges cannot be stored
in a process without own ranges (out of bounds access in
`mergeSortedRanges`). -/
theorem C49_merge_without_own (L : RangeList) : ¬ Run (iv 0 12) 4 (some (.tid (some 3))) exP L := by
  intro h
  cases h with
  | ranges cs l s hb hr hs hf =>
    have : cs = [⟨2, iv 8 12, 0⟩, ⟨0, iv 2 4, 0⟩, ⟨0, iv 0 2, 0⟩, ⟨1, iv 4 8, 0⟩] := by
      unfold exP at hb; injection hb with hb; exact hb.symm
    subst this
    have : l = [] := by
      have e : runAppends .d1 (iv 0 12) 4 (some (.tid (some 3)))
        [⟨2, iv 8 12, 0⟩, ⟨0, iv 2 4, 0⟩, ⟨0, iv 0 2, 0⟩, ⟨1, iv 4 8, 0⟩] = some [] := by decide
      rw [e] at hr; exact (Option.some.inj hr).symm
    subst this
    have : s = [] := hs.1.eq_nil
    subst this
    have e : freeze .d1 4 exP.merge [] = none := rfl
    rw [e] at hf; cases hf
  | singles as l s hb => unfold exP at hb; cases hb
  | noSingles as hb => unfold exP at hb; cases hb

end Laik.Sto
