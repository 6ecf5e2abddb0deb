import Verif.Model.MapMemLemmas
import Verif.Model.Layout
/-!
# C46 Switching partitionings neither leaks nor frees twice
-/

namespace Laik
open Mem

/-- Heap allocations used by a list of mappings, one entry per mapping. -/
def heapUse (ms : List MMap) : List Nat :=
  ms.filterMap fun m => match m.start with
    | some (.heap id) => some id
    | _ => none

/-- What is claimed on a container between two calls: the allocations in use
are exactly those of the active mappings, no two of which share an
allocation, and the statistics show the number of bytes in use. -/
structure MemClean (c : Cont) : Prop where
  no_leak : (c.heap.live.map (·.1)).Perm (heapUse (c.maps.getD []))
  no_share : (heapUse (c.maps.getD [])).Nodup
  current : c.heap.stat.curr = BitVec.ofNat 64 ((c.heap.live.map (·.2)).sum)

/-- Calls which crash: switching to nothing, and switching in a process which
is in none of the groups and has no (empty) mapping list. -/
def BadCall (c : Cont) : SwEv → Prop
  | .initial _ => False
  | .switch none => c.part = some true ∨ (c.part = some false ∧ c.maps = none)
  | .switch (some g) => g.inGroup = false ∧ c.part ≠ some true ∧ c.maps = none

/-- Invariant used in the proofs. -/
structure ContOK (c : Cont) : Prop where
  heap : HeapOK c.heap
  maps : ∀ m ∈ c.maps.getD [], MapOK m ∧ m.reused = false
  own : c.heap.live.Perm (ownedBy (c.maps.getD []))

theorem contOK_init : ContOK {} :=
  ⟨⟨by simp, by simp, rfl⟩, by simp, by simp [ownedBy]⟩

theorem heapUse_eq {ms : List MMap} (h : ∀ m ∈ ms, MapOK m ∧ m.reused = false) :
    (ownedBy ms).map (·.1) = heapUse ms := by
  induction ms with
  | nil => rfl
  | cons m ms ih =>
    have ih := ih (fun x hx => h x (by simp [hx]))
    have hm := h m (by simp)
    rw [ownedBy_cons, List.map_append, ih]
    rcases hs : m.start with _ | ⟨id | _⟩
    · simp [MMap.owned, heapUse, hs]
    · rw [hm.1.owned_of_heap hs hm.2]
      simp [heapUse, hs]
    · simp [MMap.owned, heapUse, hs]

theorem ContOK.clean {c : Cont} (h : ContOK c) : MemClean c := by
  have hp : (c.heap.live.map (·.1)).Perm (heapUse (c.maps.getD [])) := by
    rw [← heapUse_eq h.maps]
    exact h.own.map _
  exact ⟨hp, hp.nodup_iff.mp h.heap.nodup, h.heap.curr⟩

theorem heapOK_switches {h : Heap} (hh : HeapOK h) (n : Nat) :
    HeapOK { h with stat := { h.stat with switches := n } } := ⟨hh.nodup, hh.lt, hh.curr⟩

theorem doTransition_none {h : Heap} {reuse : Nat → Nat → Bool} {f : List MMap}
    {ms : Option (List MMap)} (hh : HeapOK h) (hf : ∀ m ∈ f, MapOK m)
    (hp : h.live.Perm (ownedBy f)) :
    ∃ h', doTransition h false reuse (some f) ms = .ok (h', ms) ∧ HeapOK h' ∧ h'.live = [] := by
  obtain ⟨h', h1, h2, h3, -⟩ := freeMaps_spec
    (heapOK_switches hh (h.stat.switches + 1)) hf (R := []) (by simpa using hp)
  refine ⟨h', ?_, h2, by simpa using h3⟩
  simp only [doTransition, if_pos, h1]

theorem doTransition_some {h : Heap} {reuse : Nat → Nat → Bool} {f : Option (List MMap)}
    {ms : List MMap} (hh : HeapOK h) (hf : ∀ m ∈ f.getD [], MapOK m)
    (hms : ∀ m ∈ ms, Prepared m) (hp : h.live.Perm (ownedBy (f.getD []))) :
    ∃ h' ms', doTransition h true reuse f (some ms) = .ok (h', some ms') ∧ HeapOK h' ∧
      (∀ m ∈ ms', Active m) ∧ h'.live.Perm (ownedBy ms') ∧
      ms'.map MMap.size = ms.map MMap.size := by
  have hh' := heapOK_switches hh (h.stat.switches + 1)
  obtain ⟨r, hr, h1, h2, h3, h4⟩ : ∃ r : List MMap × List MMap,
      r = checkReuse reuse ms f ∧
      (∀ m ∈ r.1, Placed m) ∧ (∀ m ∈ r.2, MapOK m) ∧
      (ownedBy (f.getD [])).Perm (ownedBy r.2 ++ ownedBy r.1) ∧
      r.1.map MMap.size = ms.map MMap.size := by
    rcases f with _ | f
    · refine ⟨_, rfl, fun m hm => (hms m hm).placed, fun m hm => by simp [checkReuse] at hm, ?_, rfl⟩
      have : ownedBy ms = [] := by
        unfold ownedBy
        rw [List.filterMap_eq_nil_iff]
        exact fun m hm => (hms m hm).owned
      rw [checkReuse, this]
      simp [ownedBy]
    · exact ⟨_, rfl, reuseMaps_spec hms hf⟩
  obtain ⟨h5, ms', h6, h7, h8, h9, h10⟩ := allocateMaps_spec hh' h1 (hp.trans h3)
  obtain ⟨h11, h12, h13, h14, -⟩ := freeMaps_spec h7 h2 h9
  refine ⟨h11, ms', ?_, h13, h8, h14, h10.trans h4⟩
  simp only [doTransition, Bool.true_eq_false, if_false]
  rw [← hr, h6]
  dsimp only
  rw [h12]

/-- Outcome of one call in a consistent state. -/
theorem swStep_spec {c : Cont} (hc : ContOK c) (ev : SwEv) :
    (BadCall c ev ∧ swStep c ev = .error .ub) ∨
    (¬ BadCall c ev ∧ (swStep c ev = .error .assert ∨
      ∃ c', swStep c ev = .ok c' ∧ ContOK c')) := by
  have hmaps : ∀ m ∈ c.maps.getD [], MapOK m := fun m hm => (hc.maps m hm).1
  rcases ev with g | _ | g
  · refine Or.inr ⟨fun h => h, ?_⟩
    simp only [swStep, setInitial]
    split
    · exact Or.inl rfl
    · rename_i hn
      have hpn : c.maps = none := by
        rcases hm : c.maps with _ | x
        · rfl
        · rw [hm] at hn; simp at hn
      split
      · split
        · rename_i ms hms
          refine Or.inr ⟨_, rfl, hc.heap, ?_, ?_⟩
          · intro m hm
            have := (prepare_spec hms).1 m hm
            exact ⟨this.placed.2.1, this.1⟩
          · have := hc.own
            rw [hpn] at this
            have h0 : ownedBy ms = [] := by
              unfold ownedBy
              rw [List.filterMap_eq_nil_iff]
              exact fun m hm => ((prepare_spec hms).1 m hm).owned
            show c.heap.live.Perm (ownedBy ms)
            rw [h0]; exact this
        · rename_i e he
          refine Or.inl ?_
          unfold prepare provide at he
          split at he
          · split at he
            · cases he
            · rename_i h
              split at h
              · cases h
              · injection h with h; injection he with he; rw [← he, ← h]
          · cases he
      · refine Or.inr ⟨_, rfl, hc.heap, by simp, ?_⟩
        have := hc.own
        rw [hpn] at this
        exact this
  · -- switch to nothing
    simp only [swStep, switchTo, BadCall]
    rcases hpart : c.part with _ | b
    · exact Or.inr ⟨by simp, Or.inr ⟨c, rfl, hc⟩⟩
    · cases b with
      | true =>
        refine Or.inl ⟨Or.inl rfl, ?_⟩
        simp [doTransition]
      | false =>
        rcases hm : c.maps with _ | f
        · refine Or.inl ⟨Or.inr ⟨rfl, rfl⟩, ?_⟩
          simp [doTransition]
        · refine Or.inr ⟨by simp, Or.inr ?_⟩
          rw [hm] at hmaps
          have hown := hc.own
          rw [hm] at hown
          obtain ⟨h', h1, h2, h3⟩ := doTransition_none (reuse := fun _ _ => false) (ms := none)
            hc.heap hmaps hown
          have hb : (some false == some true) = false := rfl
          rw [Option.getD_some] at h1
          simp only [hb, h1]
          exact ⟨⟨h', none, none⟩, rfl, h2, by simp, by simp [h3, ownedBy]⟩
  · -- switch to a partitioning
    simp only [swStep, switchTo, BadCall]
    by_cases ht : (g.inGroup || (c.part == some true)) = true
    · refine Or.inr ⟨?_, ?_⟩
      · rintro ⟨h1, h2, -⟩
        rw [h1] at ht
        simp at ht
        exact h2 ht
      · simp only [ht, if_true]
        rcases hprep : prepare g.sizes g.user with e | ms
        · refine Or.inl ?_
          simp only [Except.map]
          unfold prepare provide at hprep
          split at hprep
          · split at hprep
            · cases hprep
            · rename_i h
              split at h
              · cases h
              · injection h with h; injection hprep with he; rw [← he, ← h]
          · cases hprep
        · simp only [Except.map]
          obtain ⟨h', ms', h1, h2, h3, h4, -⟩ := doTransition_some (reuse := g.reuse)
            hc.heap hmaps (prepare_spec hprep).1 hc.own
          rw [h1]
          exact Or.inr ⟨_, rfl, h2, fun m hm => ⟨(h3 m hm).ok, (h3 m hm).fresh⟩, h4⟩
    · have ht' : (g.inGroup || (c.part == some true)) = false := by simpa using ht
      simp only [ht', Bool.false_eq_true, if_false]
      rw [Bool.or_eq_false_iff] at ht'
      rcases hm : c.maps with _ | f
      · refine Or.inl ⟨⟨ht'.1, by simpa using ht'.2, rfl⟩, ?_⟩
        simp [doTransition]
      · refine Or.inr ⟨by simp, Or.inr ?_⟩
        rw [hm] at hmaps
        have hown := hc.own
        rw [hm] at hown
        obtain ⟨h', h1, h2, h3⟩ := doTransition_none (reuse := g.reuse) (ms := none)
          hc.heap hmaps hown
        rw [Option.getD_some] at h1
        simp only [h1]
        exact ⟨⟨h', some g.inGroup, none⟩, rfl, h2, by simp, by simp [h3, ownedBy]⟩

theorem swRun_ok : ∀ {evs : List SwEv} {c c' : Cont}, ContOK c → swRun c evs = .ok c' →
    ContOK c' := by
  intro evs
  induction evs with
  | nil => intro c c' hc h; simp only [swRun, Except.ok.injEq] at h; exact h ▸ hc
  | cons ev evs ih =>
    intro c c' hc h
    simp only [swRun] at h
    rcases swStep_spec hc ev with ⟨-, h1⟩ | ⟨-, h1 | ⟨c1, h1, h2⟩⟩
    · rw [h1] at h; cases h
    · rw [h1] at h; cases h
    · rw [h1] at h; exact ih h2 h

/-- After any history of calls: memory in use is the memory of the active
mappings, which do not share allocations, and is shown by the statistics. -/
theorem C46_clean (evs : List SwEv) (c : Cont) (h : swRun {} evs = .ok c) : MemClean c :=
  (swRun_ok contOK_init h).clean

/-- After any history of calls ending with a switch, every map which is not
empty has memory, and sizes are those asked for. -/
theorem C46_memory (evs : List SwEv) (c c' : Cont) (g : Target) (h : swRun {} evs = .ok c)
    (hs : switchTo c (some g) = .ok c') (hg : g.inGroup = true) :
    ∃ ms, c'.maps = some ms ∧ ms.map MMap.size = g.sizes ∧
      ∀ m ∈ ms, 0 < m.size → m.start ≠ none := by
  have hc := swRun_ok contOK_init h
  simp only [switchTo, hg, Bool.true_or, if_true] at hs
  rcases hprep : prepare g.sizes g.user with e | ms
  · rw [hprep] at hs; simp [Except.map] at hs
  · rw [hprep] at hs
    simp only [Except.map] at hs
    obtain ⟨h', ms', h1, h2, h3, h4, h5⟩ := doTransition_some (reuse := g.reuse)
      hc.heap (fun m hm => (hc.maps m hm).1) (prepare_spec hprep).1 hc.own
    rw [h1] at hs
    injection hs with hs
    subst hs
    exact ⟨ms', rfl, h5.trans (prepare_spec hprep).2, fun m hm => (h3 m hm).mem⟩

/-- A history only leads to undefined behaviour (double free, NULL
dereference) by one of the calls of `BadCall`. -/
theorem C46_no_ub_partial (evs : List SwEv) (h : swRun {} evs = .error .ub) :
    ∃ pre ev post c, evs = pre ++ ev :: post ∧ swRun {} pre = .ok c ∧ BadCall c ev := by
  have gen : ∀ (evs : List SwEv) (c : Cont), ContOK c → swRun c evs = .error .ub →
      ∃ pre ev post c', evs = pre ++ ev :: post ∧ swRun c pre = .ok c' ∧ BadCall c' ev := by
    intro evs
    induction evs with
    | nil => intro c _ h; simp [swRun] at h
    | cons ev evs ih =>
      intro c hc h
      simp only [swRun] at h
      rcases swStep_spec hc ev with ⟨hb, -⟩ | ⟨-, h1 | ⟨c1, h1, h2⟩⟩
      · exact ⟨[], ev, evs, c, rfl, rfl, hb⟩
      · rw [h1] at h; cases h
      · rw [h1] at h
        obtain ⟨pre, ev', post, c', h3, h4, h5⟩ := ih c1 h2 h
        refine ⟨ev :: pre, ev', post, c', by simp [h3], ?_, h5⟩
        simp only [swRun, h1, h4]
  exact gen evs {} contOK_init h

/-- These calls do crash. -/
theorem C46_bad_call (evs : List SwEv) (c : Cont) (ev : SwEv) (h : swRun {} evs = .ok c)
    (hb : BadCall c ev) : swStep c ev = .error .ub := by
  rcases swStep_spec (swRun_ok contOK_init h) ev with ⟨-, h1⟩ | ⟨h1, -⟩
  · exact h1
  · exact absurd hb h1

/-- One map of `n` bytes, `r`: re-use allowed. -/
def one (n : Nat) (r : Bool) : Target := ⟨true, [n], fun _ _ => r, none⟩

/-- Switching to "no partitioning" after use crashes. -/
theorem C46_to_nothing_crash :
    swRun {} [.switch (some (one 80 true)), .switch none] = .error .ub := by decide

/-- A process outside of the group of the first partitioning crashes. -/
theorem C46_outside_crash :
    swRun {} [.switch (some ⟨false, [], fun _ _ => false, none⟩)] = .error .ub := by decide

/-- With memory provided by the user, two mappings may get the same memory:
old map 0 covers [0;100[, new maps cover [200;210[ (gets the provided memory
as map 0) and [0;50[ (re-uses the provided memory of the old map 0). -/
theorem C46_user_shared :
    let old : Target := ⟨true, [800], fun _ _ => false, some 800⟩
    let new : Target := ⟨true, [80, 400], fun i s => i == 1 && s == 0, some 800⟩
    (∃ ol nl, Lay.newLayoutLex .d1 [⟨⟨0, 0, 0⟩, ⟨100, 0, 0⟩⟩] = some ol ∧
      Lay.newLayoutLex .d1 [⟨⟨200, 0, 0⟩, ⟨210, 0, 0⟩⟩, ⟨⟨0, 0, 0⟩, ⟨50, 0, 0⟩⟩] = some nl ∧
      (Lay.reuseLex nl 0 ol 0).map (·.2) = some false ∧
      (Lay.reuseLex nl 1 ol 0).map (·.2) = some true) ∧
    ∃ c, swRun {} [.switch (some old), .switch (some new)] = .ok c ∧
      c.maps = some [⟨80, some .user, false, 800, false⟩, ⟨400, some .user, false, 800, false⟩] := by
  refine ⟨⟨_, _, rfl, rfl, by decide, by decide⟩, _, rfl, rfl⟩

example : ∃ c, swRun {} [.switch (some (one 80 true)), .switch (some (one 40 true)),
    .switch (some ⟨true, [100, 24], fun _ _ => false, none⟩)] = .ok c ∧
    c.heap.live = [(1, 100), (2, 24)] ∧ c.heap.stat.curr = 124 ∧ c.heap.stat.max = 204 :=
  ⟨_, rfl, rfl, by decide, by decide⟩

end Laik
