import Verif.Model.StoredLemmas
/-!
# Filtered runs know enough for a transition
-/

namespace Laik.Sto

theorem asg_key (pr : Prog) (l : List TR) : (pr.asg l).map TR.key = l.map TR.key := by
  unfold Prog.asg
  cases pr.body with
  | ranges _ => exact assignMaps_key _ _ _
  | singles _ => rfl

theorem grp_key (pr : Prog) (n : Nat) (M : List TR) (hs : M.Pairwise trLe) (hlt : ∀ t ∈ M, t.task < n) :
    (grp pr M n).flatten.map TR.key = M.map TR.key := by
  have h := groupsSI_flatten n 0 M (hs.imp (fun h => trLe_task h)) (fun _ _ => Nat.zero_le _)
    (fun t ht => by have := hlt t ht; omega)
  conv => rhs; rw [← h]
  rw [List.map_flatten, List.map_flatten]
  congr 1
  simp only [grp, groupsSI, List.map_map]
  apply List.map_congr_left
  intro k _
  simp only [Function.comp]
  exact asg_key _ _

theorem filter_flatten_own (gs : List (List TR)) (m i : Nat)
    (h : ∀ k (hk : k < gs.length), ∀ t ∈ gs[k], t.task = m + k) (hi : i < gs.length) :
    gs.flatten.filter (fun t => decide (t.task = m + i)) = gs[i] := by
  induction gs generalizing m i with
  | nil => simp at hi
  | cons g gs ih =>
    have hg : ∀ t ∈ g, t.task = m := fun t ht => by
      have := h 0 (by simp) t (by simpa using ht); omega
    have hgs : ∀ k (hk : k < gs.length), ∀ t ∈ gs[k], t.task = (m + 1) + k := fun k hk t ht => by
      have := h (k + 1) (by simp; omega) t (by simpa using ht); omega
    rw [List.flatten_cons, List.filter_append]
    cases i with
    | zero =>
      have e1 : g.filter (fun t => decide (t.task = m + 0)) = g := by
        rw [List.filter_eq_self]; intro t ht; simp [hg t ht]
      have e2 : gs.flatten.filter (fun t => decide (t.task = m + 0)) = [] := by
        rw [List.filter_eq_nil_iff]
        intro t ht
        obtain ⟨l, hl, ht⟩ := List.mem_flatten.1 ht
        obtain ⟨k, hk, rfl⟩ := List.getElem_of_mem hl
        have := hgs k hk t ht
        simp only [decide_eq_true_eq]; omega
      rw [e1, e2]; simp
    | succ i =>
      have e1 : g.filter (fun t => decide (t.task = m + (i + 1))) = [] := by
        rw [List.filter_eq_nil_iff]
        intro t ht
        have := hg t ht
        simp only [decide_eq_true_eq]; omega
      rw [e1, List.nil_append]
      have := ih (m + 1) i hgs (by simpa using hi)
      rw [show m + (i + 1) = m + 1 + i by omega, this]
      simp

theorem own_filter {pr : Prog} {n : Nat} {M : List TR} {L : RangeList} (h : Grouped L (grp pr M n)) {i : Nat} (hi : i < n) :
    L.tr.filter (fun t => decide (t.task = i)) = pr.asg (M.filter (fun t => decide (t.task = i))) := by
  have hl : (grp pr M n).length = n := by simp [grp]
  rw [h.tr]
  have := filter_flatten_own (grp pr M n) 0 i (fun k hk t ht => by have := h.own k hk t ht; omega) (by omega)
  rw [Nat.zero_add] at this
  rw [this]
  simp [grp]

theorem pairwise_of_key {l l' : List TR} (h : l.map TR.key = l'.map TR.key) {R : Nat × Int × Box → Nat × Int × Box → Prop}
    (hp : l'.Pairwise (fun a b => R a.key b.key)) : l.Pairwise (fun a b => R a.key b.key) := by
  have : (l'.map TR.key).Pairwise R := List.pairwise_map.2 hp
  rw [← h] at this
  exact List.pairwise_map.1 this

theorem ownsG_key {l l' : List TR} (h : l.map TR.key = l'.map TR.key) (t : Nat) (g x : Int) :
    OwnsG l t g x ↔ OwnsG l' t g x := by
  constructor
  · rintro ⟨r, hr, h1, h2, h3⟩
    obtain ⟨u, hu, e1, e2, e3⟩ := mem_of_key h hr
    exact ⟨u, hu, e1.trans h1, e2.trans h2, by unfold TR.has at *; rw [e3]; exact h3⟩
  · rintro ⟨r, hr, h1, h2, h3⟩
    obtain ⟨u, hu, e1, e2, e3⟩ := mem_of_key h.symm hr
    exact ⟨u, hu, e1.trans h1, e2.trans h2, by unfold TR.has at *; rw [e3]; exact h3⟩

theorem Sep.cases {M : List TR} (h : Sep M) {a b : TR} (ha : a ∈ M) (hb : b ∈ M) (ht : a.task = b.task) (hg : a.tag = b.tag) :
    a = b ∨ a.box.hi.x < b.box.lo.x ∨ b.box.hi.x < a.box.lo.x := by
  unfold Sep at h
  induction M with
  | nil => cases ha
  | cons m M ih =>
    rw [List.pairwise_cons] at h
    rcases List.mem_cons.1 ha with e | ha'
    · subst e
      rcases List.mem_cons.1 hb with e | hb
      · exact Or.inl e.symm
      · exact Or.inr (Or.inl (h.1 b hb ht hg))
    · rcases List.mem_cons.1 hb with e | hb
      · subst e; exact Or.inr (Or.inr (h.1 a ha' ht.symm hg.symm))
      · exact ih h.2 ha' hb

theorem pw_cases {R : TR → TR → Prop} {l : List TR} (h : l.Pairwise R) (hs : ∀ a b, R a b → R b a) {a b : TR}
    (ha : a ∈ l) (hb : b ∈ l) (hne : a ≠ b) : R a b := by
  induction l with
  | nil => cases ha
  | cons m l ih =>
    rw [List.pairwise_cons] at h
    rcases List.mem_cons.1 ha with e | ha'
    · subst e
      rcases List.mem_cons.1 hb with e | hb'
      · exact absurd e.symm hne
      · exact h.1 b hb'
    · rcases List.mem_cons.1 hb with e | hb'
      · subst e; exact hs _ _ (h.1 a ha')
      · exact ih h.2 ha' hb'

theorem flat_ext {a b : TR} (ha : Flat a) (hb : Flat b) (h1 : a.task = b.task) (h2 : a.tag = b.tag)
    (h3 : a.box.lo.x = b.box.lo.x) (h4 : a.box.hi.x = b.box.hi.x) : a = b := by
  obtain ⟨t, g, ⟨⟨x, y, z⟩, ⟨x', y', z'⟩⟩, m⟩ := a
  obtain ⟨t2, g2, ⟨⟨a, b, c⟩, ⟨a', b', c'⟩⟩, m2⟩ := b
  simp only [Flat] at *
  obtain ⟨rfl, rfl, rfl, rfl, rfl, _⟩ := ha
  obtain ⟨rfl, rfl, rfl, rfl, rfl, _⟩ := hb
  subst h1 h2 h3 h4
  rfl

theorem sep_end {M : List TR} (h : Sep M) (hf : ∀ r ∈ M, Flat r) {r : TR} (hr : r ∈ M) :
    ¬ OwnsG M r.task r.tag r.box.hi.x ∧ ¬ OwnsG M r.task r.tag (r.box.lo.x - 1) := by
  have hne := (hf r hr).2.2.2.2.2
  constructor
  · rintro ⟨q, hq, h1, h2, h3⟩
    unfold TR.has at h3
    rcases h.cases hq hr h1 h2 with e | e | e
    · subst e; omega
    · omega
    · omega
  · rintro ⟨q, hq, h1, h2, h3⟩
    unfold TR.has at h3
    rcases h.cases hq hr h1 h2 with e | e | e
    · subst e; omega
    · omega
    · omega

/-- Ranges of a merged list are the maximal intervals of owned indices. -/
theorem sep_mem_iff {M : List TR} (h : Sep M) (hf : ∀ r ∈ M, Flat r) {r : TR} (hr : Flat r) :
    r ∈ M ↔ (∀ x, r.has x → OwnsG M r.task r.tag x) ∧ ¬ OwnsG M r.task r.tag r.box.hi.x ∧
      ¬ OwnsG M r.task r.tag (r.box.lo.x - 1) := by
  constructor
  · intro hm
    exact ⟨fun x hx => ⟨r, hm, rfl, rfl, hx⟩, sep_end h hf hm⟩
  · rintro ⟨h1, h2, h3⟩
    have hne := hr.2.2.2.2.2
    obtain ⟨q, hq, q1, q2, q3⟩ := h1 r.box.lo.x ⟨Int.le_refl _, hne⟩
    unfold TR.has at q3
    have e1 : q.box.lo.x = r.box.lo.x := by
      by_contra c
      exact h3 ⟨q, hq, q1, q2, by unfold TR.has; omega⟩
    have e2 : q.box.hi.x ≤ r.box.hi.x := by
      by_contra c
      exact h2 ⟨q, hq, q1, q2, by unfold TR.has; omega⟩
    have e3 : q.box.hi.x = r.box.hi.x := by
      by_contra c
      obtain ⟨u, hu, u1, u2, u3⟩ := h1 q.box.hi.x ⟨by omega, by omega⟩
      unfold TR.has at u3
      rcases h.cases hu hq (u1.trans q1.symm) (u2.trans q2.symm) with e | e | e
      · subst e; omega
      · omega
      · omega
    rw [← flat_ext (hf q hq) hr q1 q2 e1 e3]; exact hq

/-- The own ranges in a list only depend on the own calls. -/
theorem own_eq {canon : Bool} {S1 S2 M1 M2 : List TR} {i : Nat} (p1 : Pre canon S1 M1) (p2 : Pre canon S2 M2)
    (hp : (S1.filter (fun t => decide (t.task = i))).Perm (S2.filter (fun t => decide (t.task = i))))
    (hu : canon = false → ∀ a ∈ S1, ∀ b ∈ S1, a.task = i → b.task = i → a.tag = b.tag → a.box.lo.x = b.box.lo.x → a = b) :
    M1.filter (fun t => decide (t.task = i)) = M2.filter (fun t => decide (t.task = i)) := by
  cases hc : canon with
  | false =>
    subst hc
    have e1 := (p1.plain rfl).filter (fun t => decide (t.task = i))
    have e2 := (p2.plain rfl).filter (fun t => decide (t.task = i))
    refine ((e1.trans hp).trans e2.symm).eq_of_pairwise ?_ (p1.le.filter _) (p2.le.filter _)
    intro a b ha hb h h'
    have hb' := ((e1.trans hp).trans e2.symm).mem_iff.2 hb
    rw [List.mem_filter, decide_eq_true_eq] at ha hb'
    have hab : a.task = b.task := ha.2.trans hb'.2.symm
    have hg : a.tag = b.tag := Int.le_antisymm (trLe_tag h hab) (trLe_tag h' hab.symm)
    exact hu rfl a ((p1.plain rfl).mem_iff.1 ha.1) b ((p1.plain rfl).mem_iff.1 hb'.1) ha.2 hb'.2 hg
      (Int.le_antisymm (trLe_lo h hab hg) (trLe_lo h' hab.symm hg.symm))
  | true =>
    subst hc
    have hown : ∀ g x, OwnsG M1 i g x ↔ OwnsG M2 i g x := by
      intro g x
      rw [p1.own, p2.own]
      constructor
      · rintro ⟨r, hr, h1, h2⟩
        have := hp.mem_iff.1 (List.mem_filter.2 ⟨hr, by simp [h1]⟩)
        exact ⟨r, (List.mem_filter.1 this).1, h1, h2⟩
      · rintro ⟨r, hr, h1, h2⟩
        have := hp.mem_iff.2 (List.mem_filter.2 ⟨hr, by simp [h1]⟩)
        exact ⟨r, (List.mem_filter.1 this).1, h1, h2⟩
    have hmem : ∀ r, r ∈ M1.filter (fun t => decide (t.task = i)) ↔ r ∈ M2.filter (fun t => decide (t.task = i)) := by
      intro r
      rw [List.mem_filter, List.mem_filter]
      constructor
      · rintro ⟨h1, h2⟩
        have hi : r.task = i := by simpa using h2
        have hfl := p1.flat r h1
        have := (sep_mem_iff (p1.sep rfl) p1.flat hfl).1 h1
        refine ⟨(sep_mem_iff (p2.sep rfl) p2.flat hfl).2 ?_, h2⟩
        rw [hi] at this ⊢
        simpa only [hown] using this
      · rintro ⟨h1, h2⟩
        have hi : r.task = i := by simpa using h2
        have hfl := p2.flat r h1
        have := (sep_mem_iff (p2.sep rfl) p2.flat hfl).1 h1
        refine ⟨(sep_mem_iff (p1.sep rfl) p1.flat hfl).2 ?_, h2⟩
        rw [hi] at this ⊢
        simpa only [hown] using this
    have nd : ∀ {S M : List TR}, Pre true S M → M.Nodup := by
      intro S M p
      have hs := p.sep rfl
      have hf := p.flat
      unfold Sep at hs
      refine List.Pairwise.imp_of_mem ?_ hs
      intro a b ha _ h e
      subst e
      have := h rfl rfl
      have := (hf a ha).2.2.2.2.2
      omega
    have hperm := (List.perm_ext_iff_of_nodup ((nd p1).filter _) ((nd p2).filter _)).2 hmem
    refine hperm.eq_of_pairwise ?_ (p1.le.filter _) (p2.le.filter _)
    intro a b ha hb h h'
    have hb' := (hmem b).2 hb
    rw [List.mem_filter, decide_eq_true_eq] at ha hb'
    have hab : a.task = b.task := ha.2.trans hb'.2.symm
    have hg : a.tag = b.tag := Int.le_antisymm (trLe_tag h hab) (trLe_tag h' hab.symm)
    have hlo := Int.le_antisymm (trLe_lo h hab hg) (trLe_lo h' hab.symm hg.symm)
    rcases (p1.sep rfl).cases ha.1 hb'.1 hab hg with e | e | e
    · exact e
    · have := (p1.flat a ha.1).2.2.2.2.2; omega
    · have := (p1.flat b hb'.1).2.2.2.2.2; omega

/-- Facts on the entries of the final list. -/
structure Fin (canon : Bool) (S : List TR) (L : RangeList) (n : Nat) : Prop where
  own : ∀ t g x, OwnsG L.tr t g x ↔ OwnsG S t g x
  ne : ∀ r ∈ L.tr, r.box.lo.x < r.box.hi.x
  sorted : L.tr.Pairwise (fun a b => a.task ≤ b.task)
  lt : ∀ r ∈ L.tr, r.task < n
  plain : canon = false → (L.tr.map TR.key).Perm (S.map TR.key)
  sep : canon = true → Sep L.tr

theorem fin_of_pre {pr : Prog} {n : Nat} {S M : List TR} {L : RangeList} (p : Pre pr.canon S M)
    (hg : Grouped L (grp pr M n)) (hlt : ∀ r ∈ M, r.task < n) : Fin pr.canon S L n := by
  have hkey : L.tr.map TR.key = M.map TR.key := by rw [hg.tr]; exact grp_key pr n M p.le hlt
  refine ⟨fun t g x => (ownsG_key hkey t g x).trans (p.own t g x), ?_, ?_, ?_, ?_, ?_⟩
  · intro r hr
    obtain ⟨u, hu, _, _, e⟩ := mem_of_key hkey hr
    rw [← e]; exact (p.flat u hu).2.2.2.2.2
  · exact pairwise_of_key (R := fun a b => a.1 ≤ b.1) hkey (p.le.imp (fun h => trLe_task h))
  · intro r hr
    obtain ⟨u, hu, e, _⟩ := mem_of_key hkey hr
    rw [← e]; exact hlt u hu
  · intro hc
    rw [hkey]; exact (p.plain hc).map _
  · intro hc
    exact pairwise_of_key (R := fun a b => a.1 = b.1 → a.2.1 = b.2.1 → a.2.2.hi.x < b.2.2.lo.x) hkey (p.sep hc)

theorem sep_border {L : List TR} (h : Sep L) (hne : ∀ r ∈ L, r.box.lo.x < r.box.hi.x) (z : Int) :
    (∃ r ∈ L, z = r.box.lo.x ∨ z = r.box.hi.x) ↔
      ∃ t g, (OwnsG L t g z ∧ ¬ OwnsG L t g (z - 1)) ∨ (OwnsG L t g (z - 1) ∧ ¬ OwnsG L t g z) := by
  constructor
  · rintro ⟨r, hr, hz | hz⟩
    · have := hne r hr
      refine ⟨r.task, r.tag, Or.inl ⟨⟨r, hr, rfl, rfl, ⟨by omega, by omega⟩⟩, ?_⟩⟩
      rintro ⟨q, hq, h1, h2, h3⟩
      unfold TR.has at h3
      rcases h.cases hq hr h1 h2 with e | e | e
      · subst e; omega
      · omega
      · omega
    · have := hne r hr
      refine ⟨r.task, r.tag, Or.inr ⟨⟨r, hr, rfl, rfl, ⟨by omega, by omega⟩⟩, ?_⟩⟩
      rintro ⟨q, hq, h1, h2, h3⟩
      unfold TR.has at h3
      rcases h.cases hq hr h1 h2 with e | e | e
      · subst e; omega
      · omega
      · omega
  · rintro ⟨t, g, ⟨⟨r, hr, h1, h2, h3⟩, hn⟩ | ⟨⟨r, hr, h1, h2, h3⟩, hn⟩⟩
    · unfold TR.has at h3
      refine ⟨r, hr, Or.inl ?_⟩
      by_contra c
      exact hn ⟨r, hr, h1, h2, ⟨by omega, by omega⟩⟩
    · unfold TR.has at h3
      refine ⟨r, hr, Or.inr ?_⟩
      by_contra c
      exact hn ⟨r, hr, h1, h2, ⟨by omega, by omega⟩⟩

/-- A run keeping at least the calls with an index in own ranges knows enough. -/
theorem Run.enough {space : Box} {n : Nat} {pr : Prog} {F L : RangeList} {f : Option Filter} {k : Call → Bool}
    (hF : Run space n none pr F) (hL : Run space n f pr L) (hk : ∀ c ∈ pr.calls, keepO f c = some (k c))
    (hfl : ∀ c ∈ pr.calls, Flat c.tr) (good : GoodList n F.tr) {i : Nat} (hi : i < n) (own : List TR)
    (hown : ∀ r ∈ F.tr, r.task = i → r ∈ own)
    (hkeep : ∀ c ∈ pr.calls, ∀ o ∈ own, o.task = i → ∀ x, c.tr.has x → o.has x → k c = true) :
    Enough i own F.tr L.tr := by
  obtain ⟨M, pM, gM, _, ltM⟩ := hF.pre (k := fun _ => true) (fun _ _ => rfl) hfl
  obtain ⟨M', pM', gM', _, ltM'⟩ := hL.pre hk hfl
  have fF := fin_of_pre pM gM ltM
  have fL := fin_of_pre pM' gM' ltM'
  have eS : pr.calls.filter (fun _ => true) = pr.calls := by simp
  rw [eS] at pM fF
  generalize hS : pr.calls.map Call.tr = S at pM fF
  generalize hS' : (pr.calls.filter k).map Call.tr = S' at pM' fL
  have sub : S'.Sublist S := by rw [← hS, ← hS']; exact List.Sublist.map _ List.filter_sublist
  have keep : ∀ r ∈ S, ∀ o ∈ own, o.task = i → ∀ x, r.has x → o.has x → r ∈ S' := by
    intro r hr o ho hoi x h1 h2
    rw [← hS] at hr
    obtain ⟨c, hc, rfl⟩ := List.mem_map.1 hr
    rw [← hS']
    exact List.mem_map_of_mem (List.mem_filter.2 ⟨hc, hkeep c hc o ho hoi x h1 h2⟩)
  have flatS : ∀ r ∈ S, Flat r := by
    intro r hr
    rw [← hS] at hr
    obtain ⟨c, hc, rfl⟩ := List.mem_map.1 hr
    exact hfl c hc
  -- ownership at own indices
  have ownEq : ∀ o ∈ own, o.task = i → ∀ x, o.has x → ∀ t g, OwnsG L.tr t g x ↔ OwnsG F.tr t g x := by
    intro o ho hoi x hx t g
    rw [fL.own, fF.own]
    constructor
    · rintro ⟨r, hr, h⟩; exact ⟨r, sub.subset hr, h⟩
    · rintro ⟨r, hr, h1, h2, h3⟩; exact ⟨r, keep r hr o ho hoi x h3 hx, h1, h2, h3⟩
  have ownSub : ∀ t g x, OwnsG L.tr t g x → OwnsG F.tr t g x := by
    intro t g x h
    rw [fL.own] at h
    rw [fF.own]
    obtain ⟨r, hr, h⟩ := h
    exact ⟨r, sub.subset hr, h⟩
  -- disjointness of own calls
  have goodS : pr.canon = false → S.Pairwise (fun a b => a.task = b.task → a.box.hi.x ≤ b.box.lo.x ∨ b.box.hi.x ≤ a.box.lo.x) := by
    intro hc
    have hd : (F.tr.map TR.key).Pairwise
        (fun a b => a.1 = b.1 → a.2.2.hi.x ≤ b.2.2.lo.x ∨ b.2.2.hi.x ≤ a.2.2.lo.x) := List.pairwise_map.2 good.dis
    have hd' := ((fF.plain hc).pairwise_iff (R := fun a b => a.1 = b.1 → a.2.2.hi.x ≤ b.2.2.lo.x ∨ b.2.2.hi.x ≤ a.2.2.lo.x)
      (fun {a b} h e => (h e.symm).symm)).1 hd
    exact List.pairwise_map.1 hd'
  refine ⟨fL.ne, ?_, fL.sorted, ?_, ?_, ?_, ?_⟩
  · -- disjoint
    cases hc : pr.canon with
    | false =>
      have := (goodS hc).sublist sub
      have hd : (S'.map TR.key).Pairwise
        (fun a b => a.1 = b.1 → a.2.2.hi.x ≤ b.2.2.lo.x ∨ b.2.2.hi.x ≤ a.2.2.lo.x) := List.pairwise_map.2 this
      have hd' := ((fL.plain hc).symm.pairwise_iff (R := fun a b => a.1 = b.1 → a.2.2.hi.x ≤ b.2.2.lo.x ∨ b.2.2.hi.x ≤ a.2.2.lo.x)
        (fun {a b} h e => (h e.symm).symm)).1 hd
      exact List.pairwise_map.1 hd'
    | true =>
      have hs := fL.sep hc
      unfold Sep at hs
      refine List.Pairwise.imp_of_mem ?_ hs
      intro a b ha hb h ht
      by_cases hg : a.tag = b.tag
      · exact Or.inl (Int.le_of_lt (h ht hg))
      · by_contra hcon
        have na := fL.ne a ha
        have nb := fL.ne b hb
        have hx : ∃ x, a.has x ∧ b.has x := by
          unfold TR.has
          by_cases c : a.box.lo.x ≤ b.box.lo.x
          · exact ⟨b.box.lo.x, by omega, by omega⟩
          · exact ⟨a.box.lo.x, by omega, by omega⟩
        obtain ⟨x, xa, xb⟩ := hx
        obtain ⟨r, hr, r1, r2, r3⟩ := ownSub a.task a.tag x ⟨a, ha, rfl, rfl, xa⟩
        obtain ⟨q, hq, q1, q2, q3⟩ := ownSub b.task b.tag x ⟨b, hb, rfl, rfl, xb⟩
        have hne : r ≠ q := by rintro rfl; exact hg (r2.symm.trans q2)
        have hdis := pw_cases good.dis (fun _ _ h e => (h e.symm).symm) hr hq hne (by rw [r1, q1, ht])
        unfold TR.has at r3 q3
        omega
  · intro r hr x hx
    obtain ⟨q, hq, h1, _, h3⟩ := ownSub r.task r.tag x ⟨r, hr, rfl, rfl, hx⟩
    exact ⟨q, hq, h1, h3⟩
  · -- own ranges
    rw [own_filter gM hi, own_filter gM' hi]
    congr 1
    symm
    refine own_eq pM pM' ?_ ?_
    · -- own calls are all kept
      have : S.filter (fun t => decide (t.task = i)) = S'.filter (fun t => decide (t.task = i)) := by
        rw [← hS, ← hS', List.filter_map, List.filter_map, List.filter_filter]
        congr 1
        apply List.filter_congr
        intro c hc
        simp only [Function.comp]
        by_cases hci : c.tr.task = i
        · have hfc := hfl c hc
          have hx : c.tr.has c.tr.box.lo.x := ⟨Int.le_refl _, hfc.2.2.2.2.2⟩
          obtain ⟨r, hr, h1, _, h3⟩ := (fF.own i c.tr.tag c.tr.box.lo.x).2
            ⟨c.tr, by rw [← hS]; exact List.mem_map_of_mem hc, hci, rfl, hx⟩
          have := hkeep c hc r (hown r hr h1) h1 _ hx h3
          simp [hci, this]
        · simp [hci]
      rw [this]
    · intro hc a ha b hb hai hbi htag hlo
      by_contra hne
      have := pw_cases (goodS hc) (fun _ _ h e => (h e.symm).symm) ha hb hne (by rw [hai, hbi])
      have := (flatS a ha).2.2.2.2.2
      have := (flatS b hb).2.2.2.2.2
      omega
  · intro r hr o ho hoi x hx hox
    obtain ⟨q, hq, h1, _, h3⟩ := (ownEq o ho hoi x hox r.task r.tag).2 ⟨r, hr, rfl, rfl, hx⟩
    exact ⟨q, hq, h1, h3⟩
  · -- borders inside own ranges
    intro o ho hoi z h1 h2
    cases hc : pr.canon with
    | true =>
      rw [sep_border (fL.sep hc) fL.ne, sep_border (fF.sep hc) fF.ne]
      have e1 := ownEq o ho hoi z ⟨by omega, by omega⟩
      have e2 := ownEq o ho hoi (z - 1) ⟨by omega, by omega⟩
      simp only [e1, e2]
    | false =>
      constructor
      · rintro ⟨r, hr, hz⟩
        have hm : r.key ∈ S'.map TR.key := (fL.plain hc).mem_iff.1 (List.mem_map_of_mem hr)
        obtain ⟨u, hu, e⟩ := List.mem_map.1 hm
        have hm' : u.key ∈ F.tr.map TR.key := (fF.plain hc).mem_iff.2 (List.mem_map_of_mem (sub.subset hu))
        obtain ⟨v, hv, e'⟩ := List.mem_map.1 hm'
        have : v.box = r.box := by
          have := e'.trans e
          simp only [TR.key, Prod.mk.injEq] at this
          exact this.2.2
        exact ⟨v, hv, by rw [this]; exact hz⟩
      · rintro ⟨r, hr, hz⟩
        have hne := fF.ne r hr
        have hm : r.key ∈ S.map TR.key := (fF.plain hc).mem_iff.1 (List.mem_map_of_mem hr)
        obtain ⟨u, hu, e⟩ := List.mem_map.1 hm
        have eb : u.box = r.box := by
          simp only [TR.key, Prod.mk.injEq] at e
          exact e.2.2
        have hx : ∃ x, u.has x ∧ o.has x := by
          unfold TR.has
          rw [eb]
          rcases hz with hz | hz
          · exact ⟨z, by omega, by omega⟩
          · exact ⟨z - 1, by omega, by omega⟩
        obtain ⟨x, x1, x2⟩ := hx
        have hu' := keep u hu o ho hoi x x1 x2
        have hm' : u.key ∈ L.tr.map TR.key := (fL.plain hc).mem_iff.2 (List.mem_map_of_mem hu')
        obtain ⟨v, hv, e'⟩ := List.mem_map.1 hm'
        have : v.box = r.box := by
          simp only [TR.key, Prod.mk.injEq] at e'
          rw [← eb]; exact e'.2.2
        exact ⟨v, hv, by rw [this]; exact hz⟩

end Laik.Sto
