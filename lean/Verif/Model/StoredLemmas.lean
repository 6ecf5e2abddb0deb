import Verif.Model.Stored
import Verif.Model.TransitionLemmas
import Mathlib.Data.List.Perm.Basic
import Mathlib.Tactic.ByContra
/-!
# Lemmas on runs with different filters
-/

namespace Laik.Sto

/-- Calls of a partitioner run. -/
def Prog.calls (pr : Prog) : List Call :=
  match pr.body with
  | .ranges cs => cs
  | .singles l => l.map singleCall

/-- Adjacent ranges get merged. -/
def Prog.canon (pr : Prog) : Bool :=
  match pr.body with
  | .ranges _ => pr.merge
  | .singles _ => true

/-- Map numbers are only assigned for ranges. -/
def Prog.asg (pr : Prog) (l : List TR) : List TR :=
  match pr.body with
  | .ranges _ => assignMaps (-1) (-1) l
  | .singles _ => l

/-- 1d range without other coordinates. -/
def Flat (r : TR) : Prop :=
  r.box.lo.y = 0 ∧ r.box.lo.z = 0 ∧ r.box.hi.y = 0 ∧ r.box.hi.z = 0 ∧ r.mapNo = 0 ∧ r.box.lo.x < r.box.hi.x

/-- Ranges of `t` with tag `g` cover `x`. -/
def OwnsG (L : List TR) (t : Nat) (g : Int) (x : Int) : Prop := ∃ r ∈ L, r.task = t ∧ r.tag = g ∧ r.has x

/-- Ranges of one process with the same tag are separated by gaps. -/
def Sep (M : List TR) : Prop := M.Pairwise (fun a b => a.task = b.task → a.tag = b.tag → a.box.hi.x < b.box.lo.x)

/-- Sorted (and merged) list `M` for the stored entries `S`. -/
structure Pre (canon : Bool) (S M : List TR) : Prop where
  le : M.Pairwise trLe
  own : ∀ t g x, OwnsG M t g x ↔ OwnsG S t g x
  flat : ∀ r ∈ M, Flat r
  plain : canon = false → M.Perm S
  sep : canon = true → Sep M

/-- Ranges per process. -/
def grp (pr : Prog) (M : List TR) (n : Nat) : List (List TR) :=
  (List.range' 0 n).map (fun k => pr.asg (M.filter (fun t => t.task = k)))

/-- Decision for a call; without filter all are kept. -/
def keepO (f : Option Filter) (c : Call) : Option Bool :=
  match f with
  | none => some true
  | some f => f.keep c

theorem appendIndex_keepO (space : Box) (n : Nat) (f : Option Filter) (l : List (Nat × Int)) (a : Nat × Int) {b : Bool}
    (h : keepO f (singleCall a) = some b) :
    appendIndex space n f l a = if b then siAppend space n l a.1 a.2 else some l := by
  unfold appendIndex
  cases f with
  | none => cases h; rfl
  | some f => simp only [keepO] at h; simp only [h]; cases b <;> rfl

theorem appendRange_keepO (space : Box) (n : Nat) (f : Option Filter) (l : List TR) (c : Call) {b : Bool}
    (h : keepO f c = some b) :
    appendRange .d1 space n f l c = if b then rlAppend .d1 space n l c.task c.box c.tag else some l := by
  unfold appendRange
  cases f with
  | none => cases h; rfl
  | some f => simp only [keepO] at h; simp only [h]; cases b <;> rfl

theorem mem_d1_iff (b : Box) (p : Idx) : Mem .d1 b p ↔ b.lo.x ≤ p.x ∧ p.x < b.hi.x := by
  simp [Mem, Idx.get]

theorem mergeGo_flat (cur : TR) (l : List TR) (h : ∀ r ∈ cur :: l, Flat r) : ∀ r ∈ mergeGo cur l, Flat r := by
  induction l generalizing cur with
  | nil => simpa [mergeGo] using h
  | cons s rest ih =>
    have hc := h cur List.mem_cons_self
    have hs := h s (by simp)
    have hr : ∀ r ∈ rest, Flat r := fun r hr => h r (by simp [hr])
    intro r hm
    rw [mergeGo] at hm
    split at hm
    · rcases List.mem_cons.1 hm with e | e
      · subst e; exact hc
      · exact ih s (fun r hm => by rcases List.mem_cons.1 hm with e | e; subst e; exact hs; exact hr r e) r e
    · split at hm
      · refine ih _ ?_ r hm
        intro r hm
        rcases List.mem_cons.1 hm with e | e
        · subst e
          obtain ⟨a, b, c, d, e, f⟩ := hc
          exact ⟨a, b, c, d, e, by simp only; omega⟩
        · exact hr r e
      · exact ih cur (fun r hm => by rcases List.mem_cons.1 hm with e | e; subst e; exact hc; exact hr r e) r hm

theorem siGo_flat (task : Nat) (idx0 idx : Int) (l : List (Nat × Int)) (h0 : idx0 ≤ idx) :
    ∀ r ∈ siGo task idx0 idx l, Flat r := by
  induction l generalizing task idx0 idx with
  | nil =>
    intro r hr
    simp only [siGo, List.mem_singleton] at hr
    subst hr
    exact ⟨rfl, rfl, rfl, rfl, rfl, by simp only; omega⟩
  | cons a rest ih =>
    obtain ⟨t, i⟩ := a
    intro r hr
    rw [siGo] at hr
    split at hr
    · split at hr
      · exact ih _ _ _ h0 r hr
      · split at hr
        · exact ih _ _ _ (by omega) r hr
        · rcases List.mem_cons.1 hr with e | e
          · subst e; exact ⟨rfl, rfl, rfl, rfl, rfl, by simp only; omega⟩
          · exact ih _ _ _ (by omega) r e
    · rcases List.mem_cons.1 hr with e | e
      · subst e; exact ⟨rfl, rfl, rfl, rfl, rfl, by simp only; omega⟩
      · exact ih _ _ _ (by omega) r e

theorem runSingles_filter (space : Box) (n : Nat) (f : Option Filter) (k : Call → Bool) (as l : List (Nat × Int))
    (hk : ∀ c ∈ as.map singleCall, keepO f c = some (k c))
    (h : runSingles space n f as = some l) :
    l = as.filter (fun a => k (singleCall a)) ∧ ∀ a ∈ l, a.1 < n := by
  unfold runSingles at h
  have key : ∀ (as l0 l : List (Nat × Int)), (∀ c ∈ as.map singleCall,
      keepO f c = some (k c)) →
      as.foldlM (appendIndex space n f) l0 = some l →
      l = l0 ++ as.filter (fun a => k (singleCall a)) ∧ ∀ a ∈ as.filter (fun a => k (singleCall a)), a.1 < n := by
    intro as
    induction as with
    | nil => intro l0 l _ h; simp at h; subst h; simp
    | cons a as ih =>
      intro l0 l hk h
      rw [List.foldlM_cons] at h
      have ha := hk (singleCall a) (by simp)
      have hk' : ∀ c ∈ as.map singleCall, keepO f c = some (k c) :=
        fun c hc => hk c (by rw [List.map_cons]; exact List.mem_cons_of_mem _ hc)
      rw [appendIndex_keepO space n f l0 a ha] at h
      cases hka : k (singleCall a) with
      | false =>
        rw [hka] at h
        obtain ⟨e1, e2⟩ := ih l0 l hk' h
        rw [List.filter_cons_of_neg (by simp [hka])]
        exact ⟨e1, e2⟩
      | true =>
        rw [hka] at h
        unfold siAppend at h
        simp only [if_true] at h
        split at h
        · rename_i hc
          obtain ⟨e1, e2⟩ := ih _ l hk' h
          rw [List.filter_cons_of_pos (by simp [hka])]
          refine ⟨by rw [e1]; simp, ?_⟩
          intro b hb
          rcases List.mem_cons.1 hb with e | e
          · subst e; exact hc.1
          · exact e2 b e
        · simp at h
  obtain ⟨e1, e2⟩ := key as [] l hk h
  rw [List.nil_append] at e1
  exact ⟨e1, fun a ha => e2 a (e1 ▸ ha)⟩

theorem runAppends_kept (space : Box) (n : Nat) (f : Option Filter) (k : Call → Bool) (cs : List Call) (l : List TR)
    (hk : ∀ c ∈ cs, keepO f c = some (k c))
    (h : runAppends .d1 space n f cs = some l) :
    l = (cs.filter k).map Call.tr ∧ ∀ r ∈ l, r.task < n := by
  unfold runAppends at h
  have key : ∀ (cs : List Call) (l0 l : List TR), (∀ c ∈ cs,
      keepO f c = some (k c)) →
      cs.foldlM (appendRange .d1 space n f) l0 = some l →
      l = l0 ++ (cs.filter k).map Call.tr ∧ ∀ r ∈ (cs.filter k).map Call.tr, r.task < n := by
    intro as
    induction as with
    | nil => intro l0 l _ h; simp at h; subst h; simp
    | cons a as ih =>
      intro l0 l hk h
      rw [List.foldlM_cons] at h
      have ha := hk a (by simp)
      have hk' : ∀ c ∈ as, keepO f c = some (k c) :=
        fun c hc => hk c (List.mem_cons_of_mem _ hc)
      rw [appendRange_keepO space n f l0 a ha] at h
      cases hka : k a with
      | false =>
        rw [hka] at h
        obtain ⟨e1, e2⟩ := ih l0 l hk' h
        rw [List.filter_cons_of_neg (by simp [hka])]
        exact ⟨e1, e2⟩
      | true =>
        rw [hka] at h
        unfold rlAppend at h
        simp only [if_true] at h
        split at h
        · rename_i hc
          obtain ⟨e1, e2⟩ := ih _ l hk' h
          rw [List.filter_cons_of_pos (by simp [hka])]
          refine ⟨by rw [e1]; simp [Call.tr], ?_⟩
          intro b hb
          rw [List.map_cons] at hb
          rcases List.mem_cons.1 hb with e | e
          · subst e; exact hc.1
          · exact e2 b e
        · simp at h
  obtain ⟨e1, e2⟩ := key cs [] l hk h
  rw [List.nil_append] at e1
  exact ⟨e1, fun a ha => e2 a (e1 ▸ ha)⟩

/-- Result of a run with a filter keeping the calls `k`. -/
theorem Run.pre {space : Box} {n : Nat} {f : Option Filter} {pr : Prog} {L : RangeList} (h : Run space n f pr L)
    {k : Call → Bool} (hk : ∀ c ∈ pr.calls, keepO f c = some (k c))
    (hfl : ∀ c ∈ pr.calls, Flat c.tr) :
    ∃ M, Pre pr.canon ((pr.calls.filter k).map Call.tr) M ∧ Grouped L (grp pr M n) ∧ L.tidCount = n ∧
      ∀ r ∈ M, r.task < n := by
  have flatS : ∀ r ∈ (pr.calls.filter k).map Call.tr, Flat r := by
    intro r hr
    obtain ⟨c, hc, rfl⟩ := List.mem_map.1 hr
    exact hfl c (List.mem_filter.1 hc).1
  cases h with
  | ranges cs l s hb hr hs hf =>
    have ec : pr.calls = cs := by simp [Prog.calls, hb]
    have ecan : pr.canon = pr.merge := by simp [Prog.canon, hb]
    have easg : ∀ M, grp pr M n = groups M 0 n := by intro M; simp [grp, groups, Prog.asg, hb]
    rw [ec] at hk flatS ⊢
    obtain ⟨e1, e2⟩ := runAppends_kept space n f k cs l hk hr
    rw [← e1] at flatS ⊢
    have hlt : ∀ t ∈ s, t.task < n := fun t ht => e2 t (hs.1.mem_iff.1 ht)
    have flat : ∀ r ∈ s, Flat r := fun r hr => flatS r (hs.1.mem_iff.1 hr)
    unfold freeze at hf
    cases hm : pr.merge with
    | false =>
      rw [hm] at hf
      simp only [Bool.false_eq_true, if_false] at hf
      obtain ⟨off, tr, h1, h2⟩ := updateOffsets_grouped s n hs.2 hlt
      rw [h1] at hf
      simp only [Option.some.injEq] at hf
      subst hf
      refine ⟨s, ⟨hs.2, ?_, flat, fun _ => hs.1, fun hc => by rw [ecan, hm] at hc; cases hc⟩, by rw [easg]; exact h2, rfl, hlt⟩
      intro t g x
      constructor
      · rintro ⟨r, hr, h⟩; exact ⟨r, hs.1.mem_iff.1 hr, h⟩
      · rintro ⟨r, hr, h⟩; exact ⟨r, hs.1.mem_iff.2 hr, h⟩
    | true =>
      rw [hm] at hf
      simp only [if_true] at hf
      cases s with
      | nil => simp [mergeSorted] at hf
      | cons t ts =>
        simp only [mergeSorted, if_true] at hf
        obtain ⟨hsep, hfrom⟩ := mergeGo_sep t ts hs.2
        have hlt' : ∀ r ∈ mergeGo t ts, r.task < n := by
          intro r hr; obtain ⟨u, hu, e, _⟩ := hfrom r hr; rw [e]; exact hlt u hu
        obtain ⟨off, tr, h1, h2⟩ := updateOffsets_grouped (mergeGo t ts) n (hsep.imp (fun h => h.1)) hlt'
        rw [h1] at hf
        simp only [Option.some.injEq] at hf
        subst hf
        refine ⟨mergeGo t ts, ⟨hsep.imp (fun h => h.1), ?_, mergeGo_flat t ts flat,
          fun hc => (by rw [ecan, hm] at hc; cases hc), fun _ => hsep.imp (fun h => h.2)⟩, by rw [easg]; exact h2, rfl, hlt'⟩
        intro tk g x
        have := mergeGo_own t ts hs.2 tk g ⟨x, 0, 0⟩
        simp only [mem_d1_iff] at this
        refine Iff.trans this ?_
        constructor
        · rintro ⟨r, hr, h⟩; exact ⟨r, hs.1.mem_iff.1 hr, h⟩
        · rintro ⟨r, hr, h⟩; exact ⟨r, hs.1.mem_iff.2 hr, h⟩
  | singles as l s hb hr hne hp hs hf =>
    have ec : pr.calls = as.map singleCall := by simp [Prog.calls, hb]
    have ecan : pr.canon = true := by simp [Prog.canon, hb]
    have easg : ∀ M, grp pr M n = groupsSI M 0 n := by intro M; simp [grp, groupsSI, Prog.asg, hb]
    rw [ec] at hk flatS ⊢
    obtain ⟨e1, e2⟩ := runSingles_filter space n f k as l hk hr
    cases s with
    | nil => exact absurd (List.nil_perm.1 hp) hne
    | cons a rest =>
      obtain ⟨t, i⟩ := a
      obtain ⟨off, tr, h1, h2⟩ := freezeSI_grouped n t i rest hs (fun a ha => e2 a (hp.mem_iff.1 ha))
      rw [h1] at hf
      simp only [Option.some.injEq] at hf
      subst hf
      obtain ⟨hsep, hfrom⟩ := siGo_sep t i i rest (Int.le_refl _) hs
      have hlt : ∀ r ∈ siGo t i i rest, r.task < n := by
        intro r hr
        rcases (hfrom r hr).2.2.2 with ⟨a, _⟩ | h
        · rw [a]; exact e2 (t, i) (hp.mem_iff.1 (by simp))
        · exact e2 _ (hp.mem_iff.1 (List.mem_cons_of_mem _ h))
      refine ⟨siGo t i i rest, ⟨hsep.imp (fun h => h.1), ?_, siGo_flat t i i rest (Int.le_refl _),
        fun hc => (by rw [ecan] at hc; cases hc), fun _ => hsep.imp (fun h e _ => h.2.2 e)⟩, by rw [easg]; exact h2, rfl, hlt⟩
      intro tk g x
      have hown := siGo_own t i i rest (Int.le_refl _) tk ⟨x, 0, 0⟩
      simp only [mem_d1_iff] at hown
      constructor
      · rintro ⟨r, hr, h1, h2, h3⟩
        have hg := (hfrom r hr).2.1
        have hin : (tk, x) ∈ l := by
          rw [← hp.mem_iff]
          rcases hown.1 ⟨r, hr, h1, h3⟩ with ⟨a, b, c⟩ | h
          · have : x = i := by omega
            rw [a, this]; exact List.mem_cons_self
          · exact List.mem_cons_of_mem _ h
        rw [e1, List.mem_filter] at hin
        refine ⟨(singleCall (tk, x)).tr, List.mem_map_of_mem (List.mem_filter.2 ⟨List.mem_map_of_mem hin.1, hin.2⟩), rfl, ?_, ?_⟩
        · rw [← h2, hg]; rfl
        · simp only [TR.has, Call.tr, singleCall]; omega
      · rintro ⟨r, hr, h1, h2, h3⟩
        obtain ⟨c, hc, rfl⟩ := List.mem_map.1 hr
        obtain ⟨hc, hkc⟩ := List.mem_filter.1 hc
        obtain ⟨b, hb', rfl⟩ := List.mem_map.1 hc
        have ex : b = (tk, x) := by
          simp only [TR.has, Call.tr, singleCall] at h1 h3
          ext
          · exact h1
          · simp only; omega
        subst ex
        have hin : (tk, x) ∈ (t, i) :: rest := by
          rw [hp.mem_iff, e1, List.mem_filter]; exact ⟨hb', hkc⟩
        obtain ⟨r, hr, h4, h5⟩ := hown.2 (by
          rcases List.mem_cons.1 hin with e | e
          · left
            simp only [Prod.mk.injEq] at e
            exact ⟨e.1, by omega, by omega⟩
          · right; exact e)
        refine ⟨r, hr, h4, ?_, h5⟩
        rw [(hfrom r hr).2.1, ← h2]; rfl
  | noSingles as hb hr hf =>
    have ec : pr.calls = as.map singleCall := by simp [Prog.calls, hb]
    rw [ec] at hk ⊢
    obtain ⟨e1, e2⟩ := runSingles_filter space n f k as [] hk hr
    have hempty : (List.map singleCall as).filter k = [] := by
      rw [List.filter_eq_nil_iff]
      intro c hc
      obtain ⟨b, hb', rfl⟩ := List.mem_map.1 hc
      have := List.filter_eq_nil_iff.1 e1.symm b hb'
      exact this
    rw [hempty]
    refine ⟨[], ⟨List.Pairwise.nil, by simp, by simp, fun _ => by simp, fun _ => List.Pairwise.nil⟩, ?_⟩
    have easg : grp pr [] n = groups [] 0 n := by
      simp [grp, groups, Prog.asg, hb, assignMaps]
    rw [easg]
    unfold freeze at hf
    split at hf
    · cases hf
    · rename_i l hl
      have hl' : l = [] := by
        cases hm : pr.merge with
        | false => rw [hm] at hl; simpa using hl.symm
        | true => rw [hm] at hl; simp [mergeSorted] at hl
      subst hl'
      obtain ⟨off, tr, h1, h2⟩ := updateOffsets_grouped [] n List.Pairwise.nil (by simp)
      rw [h1] at hf
      simp only [Option.some.injEq] at hf
      subst hf
      exact ⟨h2, rfl, by simp⟩

end Laik.Sto
