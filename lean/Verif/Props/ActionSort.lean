import Verif.Model.Deadlock
/-!
# C20, C21: sorting of action sequences
-/

namespace Laik

variable {α : Type}

/-- Actions that are neither sends nor receives. -/
def AKind.isLocal : AKind → Bool
  | .send _ => false
  | .recv _ => false
  | _ => true

/-- Specification of an allowed reordering `r` of `l`; `same` tells which actions
of a round have to keep their relative order.  `s` is the list of actions of `l`
with their positions, in the order of `r`. -/
def Reordered (same : AKind → AKind → Prop) (l r : List (Act α)) : Prop :=
  ∃ s : List (Act α × Nat), s.Perm l.zipIdx ∧ r.map (·.er) = s.map (·.1.er) ∧
    (r.zip s).Pairwise (fun x y => x.1.round ≤ y.1.round ∧
      (x.2.1.round < y.2.1.round ↔ x.1.round < y.1.round) ∧
      (x.2.1.round = y.2.1.round → same x.2.1.kind y.2.1.kind → x.2.2 < y.2.2))

/-- Rounds are numbered from 0 without gaps. -/
def Gapless (l : List (Act α)) : Prop := ∀ a ∈ l, ∀ j ≤ a.round, ∃ b ∈ l, b.round = j

/-- Same peer and direction, or both local. -/
def samePhase (k k' : AKind) : Prop := k = k' ∨ k.isLocal ∧ k'.isLocal

/-! ### Helpers -/

theorem ptrSort_nodup {cmp} {l : List (Act α)} {s : List (Act α × Nat)} (h : IsPtrSort cmp l s) :
    s.Pairwise (fun a b => a.2 ≠ b.2) := by
  have : (s.map (·.2)).Nodup := by
    rw [(h.1.map (·.2)).nodup_iff]
    rw [List.zipIdx_map_snd]
    exact List.nodup_range'
  exact List.pairwise_map.1 this

theorem ptrSort_unchanged {cmp} {l : List (Act α)} {s : List (Act α × Nat)} (h : IsPtrSort cmp l s)
    (e : s.map (·.2) = List.range l.length) : s = l.zipIdx := by
  have hl : s.length = l.length := by rw [h.1.length_eq, List.length_zipIdx]
  apply List.ext_getElem
  · rw [List.length_zipIdx, hl]
  · intro i h1 h2
    have hm := h.1.subset (List.getElem_mem h1)
    have hp : s[i].2 = i := by
      have : (s.map (·.2))[i]'(by simpa using h1) = (List.range l.length)[i]'(by simp; omega) := by
        simp only [e]
      simpa using this
    generalize s[i] = y at hm hp
    obtain ⟨b, j⟩ := y
    simp only at hp
    subst hp
    have := List.mem_zipIdx' hm
    rw [List.getElem_zipIdx]
    simp [this.2]

theorem sortSeq_reordered {cmp} {same : AKind → AKind → Prop} {l : List (Act α)} {s : List (Act α × Nat)}
    (h : IsPtrSort cmp l s) (hround : ∀ a b : Act α × Nat, cmp a b ≤ 0 → a.1.round ≤ b.1.round)
    (hpos : ∀ a b : Act α × Nat, cmp a b ≤ 0 → a.1.round = b.1.round → same a.1.kind b.1.kind → a.2 ≤ b.2) :
    ∃ r, sortSeq l s = some r ∧ Reordered same l r ∧ (r ≠ l → Gapless r) ∧ r.map (·.er) = s.map (·.1.er) := by
  have hpw : s.Pairwise (fun a b => a.1.round ≤ b.1.round ∧ (a.1.round = b.1.round → same a.1.kind b.1.kind → a.2 < b.2)) := by
    refine (h.2.and (ptrSort_nodup h)).imp ?_
    rintro a b ⟨h1, h2⟩
    exact ⟨hround a b h1, fun e hs => Nat.lt_of_le_of_ne (hpos a b h1 e hs) h2⟩
  have zipself : ∀ f : Act α × Nat → Act α, (s.map f).zip s = s.map (fun x => (f x, x)) := by
    intro f
    conv_lhs => rw [← List.map_id s, List.map_map]
    rw [List.zip_map']
    rfl
  unfold sortSeq
  by_cases c1 : l = []
  · rw [if_pos c1]
    have hs : s = [] := by
      have := h.1; rw [c1] at this; exact List.perm_nil.1 (by simpa using this)
    refine ⟨l, rfl, ⟨s, h.1, ?_, ?_⟩, fun hne => absurd rfl hne, ?_⟩ <;> simp [c1, hs]
  rw [if_neg c1]
  by_cases c2 : s.map (·.2) = List.range l.length
  · rw [if_pos c2]
    have hs := ptrSort_unchanged h c2
    have hl : l = s.map (·.1) := by rw [hs, List.zipIdx_map_fst]
    refine ⟨l, rfl, ⟨s, h.1, ?_, ?_⟩, fun hne => absurd rfl hne, ?_⟩
    · rw [hl, List.map_map]; rfl
    · rw [hl, zipself, List.pairwise_map]
      refine hpw.imp ?_
      rintro a b ⟨h1, h2⟩
      exact ⟨h1, Iff.rfl, h2⟩
    · rw [hl, List.map_map]; rfl
  rw [if_neg c2]
  have hlen : s.length = l.length := by rw [h.1.length_eq, List.length_zipIdx]
  obtain ⟨f, hf, hmono, hgap⟩ := addResorted_spec (s.map (·.1))
    (by
      intro hnil
      rw [List.map_eq_nil_iff] at hnil
      rw [hnil] at hlen
      exact c1 (List.length_eq_zero_iff.1 hlen.symm))
    (List.pairwise_map.2 (hpw.imp (fun h => h.1)))
  refine ⟨_, hf, ⟨s, h.1, ?_, ?_⟩, ?_, ?_⟩
  · rw [List.map_map, List.map_map]; rfl
  · rw [List.map_map, zipself, List.pairwise_map]
    have hall : s.Pairwise (fun a b => a ∈ s ∧ b ∈ s) := List.pairwise_of_forall_mem_list (fun a ha b hb => ⟨ha, hb⟩)
    refine (hpw.and hall).imp ?_
    rintro a b ⟨⟨h1, h2⟩, ha, hb⟩
    have m1 := hmono a.1 (List.mem_map_of_mem ha) b.1 (List.mem_map_of_mem hb)
    have m2 := hmono b.1 (List.mem_map_of_mem hb) a.1 (List.mem_map_of_mem ha)
    simp only [Function.comp]
    refine ⟨?_, m1, h2⟩
    omega
  · intro _ a ha j hj
    rw [List.mem_map] at ha
    obtain ⟨a', ha', rfl⟩ := ha
    obtain ⟨b, hb, e⟩ := hgap j ⟨a', ha', hj⟩
    exact ⟨_, List.mem_map_of_mem hb, e⟩
  · rw [List.map_map, List.map_map]; rfl

theorem cmp2phase_pos {me : Nat} {a b : Act α × Nat} (h : cmp2phase me a b ≤ 0) (hr : a.1.round = b.1.round)
    (hk : samePhase a.1.kind b.1.kind) : a.2 ≤ b.2 := by
  have e : phase me a.1.kind = phase me b.1.kind ∧ (phase me a.1.kind > 0 → peer a.1.kind = peer b.1.kind) := by
    rcases hk with hk | ⟨h1, h2⟩
    · rw [hk]; exact ⟨rfl, fun _ => rfl⟩
    · have l0 : ∀ k : AKind, k.isLocal → phase me k = 0 := by
        intro k hk
        cases k <;> simp_all [AKind.isLocal, phase]
      rw [l0 _ h1, l0 _ h2]
      exact ⟨rfl, fun h => absurd h (by decide)⟩
  unfold cmp2phase at h
  rw [if_neg (by simpa using hr), if_neg (by simpa using e.1), if_neg (fun c => c.2 (e.2 c.1))] at h
  omega

/-! ### C21 -/

/-- C21, for `laik_aseq_sort_2phases`: it never aborts; the result is a
permutation with monotone rounds; in a round, actions with the same direction
and peer, and all local actions, keep their order; if anything changes, the
rounds are numbered from 0 without gaps.
Missing for the full claim: if nothing has to be moved, gaps in the rounds stay,
see `C21_gaps_remain`. -/
theorem C21_sort_2phases_partial (me : Nat) (l : List (Act α)) (s : List (Act α × Nat))
    (h : IsPtrSort (cmp2phase me) l s) :
    ∃ r, sortSeq l s = some r ∧ Reordered samePhase l r ∧ (r ≠ l → Gapless r) := by
  obtain ⟨r, h1, h2, h3, _⟩ := sortSeq_reordered (same := samePhase) h (fun _ _ => cmp2phase_round) (fun _ _ => cmp2phase_pos)
  exact ⟨r, h1, h2, h3⟩

/-- C21, for `laik_aseq_sort_rounds`: all actions of a round keep their order. -/
theorem C21_sort_rounds_partial (l : List (Act α)) (s : List (Act α × Nat)) (h : IsPtrSort cmpRounds l s) :
    ∃ r, sortSeq l s = some r ∧ Reordered (fun _ _ => True) l r ∧ (r ≠ l → Gapless r) := by
  obtain ⟨r, h1, h2, h3, _⟩ := sortSeq_reordered (same := fun _ _ => True) h (fun _ _ => cmpRounds_round)
    (by
      intro a b h hr _
      unfold cmpRounds at h
      rw [if_neg (by simpa using hr)] at h
      omega)
  exact ⟨r, h1, h2, h3⟩

/-- The order by phases: in the result of the 2-phase sort, an action is never
before one of the same round with a smaller phase, or with the same phase and a
smaller peer. -/
theorem C21_phase_order (me : Nat) (l : List (Act α)) (s : List (Act α × Nat)) (r : List (Act α))
    (h : IsPtrSort (cmp2phase me) l s) (hr : sortSeq l s = some r) :
    r.Pairwise (fun a b => a.round = b.round →
      phase me a.kind < phase me b.kind ∨
      phase me a.kind = phase me b.kind ∧ (0 < phase me a.kind → peer a.kind ≤ peer b.kind)) := by
  obtain ⟨r', h1, ⟨s', hs', her', hz⟩, _, her⟩ :=
    sortSeq_reordered (same := samePhase) h (fun _ _ => cmp2phase_round) (fun _ _ => cmp2phase_pos)
  rw [hr] at h1
  cases h1
  -- relate to `s`
  have hlen : r.length = s.length := by simpa using congrArg List.length her
  rw [List.pairwise_iff_getElem]
  intro i j hi hj hij hround
  have hlen' : r.length = s'.length := by simpa using congrArg List.length her'
  have e : ∀ k (hk : k < r.length), r[k].kind = (s[k]'(by omega)).1.kind := by
    intro k hk
    have : (r.map (·.er))[k]'(by simpa using hk) = (s.map (·.1.er))[k]'(by simp; omega) := by simp only [her]
    simp only [List.getElem_map, Act.er, Prod.mk.injEq] at this
    exact this.1
  have hsr : (s[i]'(by omega)).1.round = (s[j]'(by omega)).1.round := by
    by_cases c1 : l = []
    · have := h.1.length_eq
      rw [c1] at this
      simp at this
      rw [this] at hlen
      simp at hlen
      rw [hlen] at hi
      simp at hi
    by_cases c2 : s.map (·.2) = List.range l.length
    · rw [sortSeq, if_neg c1, if_pos c2] at hr
      cases hr
      have hl : l = s.map (·.1) := by rw [ptrSort_unchanged h c2, List.zipIdx_map_fst]
      have e2 : ∀ k (hk : k < l.length), l[k].round = (s[k]'(by omega)).1.round := by
        intro k hk
        have : l[k] = (s.map (·.1))[k]'(by rw [← hl]; exact hk) := by simp only [← hl]
        rw [this, List.getElem_map]
      rw [← e2 i hi, ← e2 j hj, hround]
    · rw [sortSeq, if_neg c1, if_neg c2] at hr
      have hp : s.Pairwise (fun a b => a.1.round ≤ b.1.round) := h.2.imp cmp2phase_round
      obtain ⟨f, hf, hmono, _⟩ := addResorted_spec (s.map (·.1))
        (by
          intro hnil
          rw [List.map_eq_nil_iff] at hnil
          rw [hnil] at hlen
          simp only [List.length_nil] at hlen
          omega)
        (List.pairwise_map.2 hp)
      rw [hf] at hr
      simp only [Option.some.injEq] at hr
      have e2 : ∀ k (hk : k < r.length), r[k].round = f (s[k]'(by omega)).1.round := by
        intro k hk
        subst hr
        simp
      rw [e2 i hi, e2 j hj] at hround
      have m := hmono (s[i]'(by omega)).1 (List.mem_map_of_mem (List.getElem_mem _))
        (s[j]'(by omega)).1 (List.mem_map_of_mem (List.getElem_mem _))
      have hle := List.pairwise_iff_getElem.1 hp i j (by omega) (by omega) hij
      omega
  have hc := List.pairwise_iff_getElem.1 h.2 i j (by omega) (by omega) hij
  rw [e i hi, e j hj]
  unfold cmp2phase at hc
  rw [if_neg (by simpa using hsr)] at hc
  split at hc
  · left; omega
  · rename_i hph
    right
    refine ⟨by omega, fun hpos => ?_⟩
    by_cases hpe : peer (s[i]'(by omega)).1.kind = peer (s[j]'(by omega)).1.kind
    · omega
    · rw [if_pos ⟨hpos, hpe⟩] at hc
      omega

/-- `cmp2phase` orders lexicographically by round, phase, peer and position. -/
theorem cmp2phase_le_iff (me : Nat) (a b : Act α × Nat) : cmp2phase me a b ≤ 0 ↔
    a.1.round < b.1.round ∨ a.1.round = b.1.round ∧ (phase me a.1.kind < phase me b.1.kind ∨
      phase me a.1.kind = phase me b.1.kind ∧ (peer a.1.kind < peer b.1.kind ∨
        peer a.1.kind = peer b.1.kind ∧ a.2 ≤ b.2)) := by
  have h0 : ∀ k, ¬ phase me k > 0 → peer k = 0 := by
    intro k hk
    cases k with
    | other => rfl
    | coll c => rfl
    | send p => exact absurd (show phase me (.send p) > 0 by unfold phase; simp only; split <;> decide) hk
    | recv p => exact absurd (show phase me (.recv p) > 0 by unfold phase; simp only; split <;> decide) hk
  have ha := h0 a.1.kind
  have hb := h0 b.1.kind
  unfold cmp2phase
  split
  · omega
  · split
    · omega
    · split
      · omega
      · rename_i h1 h2 h3
        have : peer a.1.kind = peer b.1.kind := by
          by_cases hp : phase me a.1.kind > 0
          · by_contra hne
            exact h3 ⟨hp, hne⟩
          · rw [ha hp, hb (by omega)]
        omega

/-- The comparison function is a consistent total order, as `qsort` requires;
the sorted sequence exists and is unique. -/
theorem C21_sort_unique (me : Nat) (l : List (Act α)) :
    (∃ s, IsPtrSort (cmp2phase me) l s) ∧
    (∀ s s', IsPtrSort (cmp2phase me) l s → IsPtrSort (cmp2phase me) l s' → s = s') := by
  have anti : ∀ a ∈ l.zipIdx, ∀ b ∈ l.zipIdx, cmp2phase me a b ≤ 0 → cmp2phase me b a ≤ 0 → a = b := by
    intro a ha b hb h1 h2
    rw [cmp2phase_le_iff] at h1 h2
    have hpos : a.2 = b.2 := by omega
    obtain ⟨a, i⟩ := a
    obtain ⟨b, j⟩ := b
    simp only at hpos
    subst hpos
    have := (List.mem_zipIdx' ha).2
    have := (List.mem_zipIdx' hb).2
    simp_all
  have trans : ∀ a b c : Act α × Nat, cmp2phase me a b ≤ 0 → cmp2phase me b c ≤ 0 → cmp2phase me a c ≤ 0 := by
    intro a b c
    rw [cmp2phase_le_iff, cmp2phase_le_iff, cmp2phase_le_iff]
    omega
  have total : ∀ a b : Act α × Nat, cmp2phase me a b ≤ 0 ∨ cmp2phase me b a ≤ 0 := by
    intro a b
    rw [cmp2phase_le_iff, cmp2phase_le_iff]
    omega
  constructor
  · refine ⟨l.zipIdx.mergeSort (fun a b => decide (cmp2phase me a b ≤ 0)), List.mergeSort_perm _ _, ?_⟩
    have := List.pairwise_mergeSort (le := fun a b : Act α × Nat => decide (cmp2phase me a b ≤ 0))
      (fun a b c h1 h2 => by
        simp only [decide_eq_true_eq] at *
        exact trans a b c h1 h2)
      (fun a b => by
        simp only [Bool.or_eq_true, decide_eq_true_eq]
        exact total a b) l.zipIdx
    exact this.imp (fun h => by simpa using h)
  · intro s s' h h'
    exact List.Perm.eq_of_pairwise (fun a b ha hb h1 h2 => anti a (h.1.subset ha) b (h'.1.subset hb) h1 h2)
      h.2 h'.2 (h.1.trans h'.1.symm)

/-- If rounds are in order before, the messages to (or from) a peer are the same
list before and after the sort. -/
theorem C21_same_peer_order (me : Nat) (l : List (Act α)) (s : List (Act α × Nat)) (r : List (Act α))
    (h : IsPtrSort (cmp2phase me) l s) (hr : sortSeq l s = some r)
    (hl : l.Pairwise (fun a b => a.round ≤ b.round)) (k : AKind) :
    (r.filter (·.kind = k)).map (·.er) = (l.filter (·.kind = k)).map (·.er) := by
  obtain ⟨r', h1, _, _, her⟩ :=
    sortSeq_reordered (same := samePhase) h (fun _ _ => cmp2phase_round) (fun _ _ => cmp2phase_pos)
  rw [hr] at h1
  cases h1
  have e : ∀ m : List (Act α), (m.filter (·.kind = k)).map (·.er) = (m.map (·.er)).filter (fun x => x.1 = k) := by
    intro m
    rw [List.filter_map]
    rfl
  have e2 : (l.zipIdx.filter (fun x => x.1.kind = k)) = s.filter (fun x => x.1.kind = k) := by
    have hz : l.zipIdx.Pairwise (fun a b => a.1.round ≤ b.1.round ∧ a.2 < b.2) := by
      rw [List.pairwise_iff_getElem] at hl ⊢
      intro i j hi hj hij
      simp only [List.length_zipIdx] at hi hj
      simpa using ⟨hl i j hi hj hij, hij⟩
    have hs : s.Pairwise (fun a b => a.1.round ≤ b.1.round ∧ (a.1.round = b.1.round → a.1.kind = b.1.kind → a.2 < b.2)) := by
      refine (h.2.and (ptrSort_nodup h)).imp ?_
      rintro a b ⟨h1, h2⟩
      exact ⟨cmp2phase_round h1, fun e hk => Nat.lt_of_le_of_ne (cmp2phase_pos h1 e (Or.inl hk)) h2⟩
    refine List.Perm.eq_of_pairwise (le := fun a b => a.1.round ≤ b.1.round ∧ (a.1.round = b.1.round → a.1.kind = b.1.kind → a.2 < b.2))
      ?_ ((hz.imp fun {a b} (h : a.1.round ≤ b.1.round ∧ a.2 < b.2) => ⟨h.1, fun _ _ => h.2⟩).sublist List.filter_sublist)
      (hs.sublist List.filter_sublist) (h.1.symm.filter _)
    rintro a b ha hb ⟨h1, h2⟩ ⟨h3, h4⟩
    have ka := (List.mem_filter.1 ha).2
    have kb := (List.mem_filter.1 hb).2
    simp only [decide_eq_true_eq] at ka kb
    have := h2 (by omega) (by rw [ka, kb])
    have := h4 (by omega) (by rw [ka, kb])
    omega
  have e3 : (l.filter (·.kind = k)).map (·.er) = (l.zipIdx.filter (fun x => x.1.kind = k)).map (·.1.er) := by
    have : l = l.zipIdx.map (·.1) := (List.zipIdx_map_fst _ _).symm
    conv_lhs => rw [this, List.filter_map, List.map_map]
    rfl
  rw [e3, e2, e, her, List.filter_map]
  rfl

/-- The full claim fails: rounds of a sequence that needs no reordering keep
their gaps. -/
theorem C21_gaps_remain : ∃ (l : List (Act Nat)) (s : List (Act Nat × Nat)),
    IsPtrSort (cmp2phase 0) l s ∧ sortSeq l s = some l ∧ ¬ Gapless l := by
  refine ⟨[⟨0, .other, 0⟩, ⟨5, .send 1, 0⟩], [(⟨0, .other, 0⟩, 0), (⟨5, .send 1, 0⟩, 1)], ?_, by decide, ?_⟩
  · exact ⟨List.Perm.refl _, by decide⟩
  · intro h
    obtain ⟨b, hb, e⟩ := h ⟨5, .send 1, 0⟩ (by decide) 1 (by decide)
    exact (by decide : ∀ b ∈ ([⟨0, .other, 0⟩, ⟨5, .send 1, 0⟩] : List (Act Nat)), b.round ≠ 1) b hb e

/-- Process 1 with messages in rounds 2 and 7. -/
def sortDemo : List (Act Nat) :=
  [⟨7, .send 0, 0⟩, ⟨2, .recv 2, 1⟩, ⟨2, .send 2, 2⟩, ⟨2, .recv 0, 3⟩, ⟨2, .other, 4⟩, ⟨2, .recv 2, 5⟩]

example : ∃ s, IsPtrSort (cmp2phase 1) sortDemo s ∧ sortSeq sortDemo s =
    some [⟨0, .other, 4⟩, ⟨0, .recv 0, 3⟩, ⟨0, .send 2, 2⟩, ⟨0, .recv 2, 1⟩, ⟨0, .recv 2, 5⟩, ⟨1, .send 0, 0⟩] :=
  ⟨[(⟨2, .other, 4⟩, 4), (⟨2, .recv 0, 3⟩, 3), (⟨2, .send 2, 2⟩, 2), (⟨2, .recv 2, 1⟩, 1), (⟨2, .recv 2, 5⟩, 5),
    (⟨7, .send 0, 0⟩, 0)], ⟨by decide, by decide⟩, by decide⟩

/-! ### C20 -/

/-- Sequences of all processes fit together.  `g p` translates round numbers of
process `p` to round numbers of the whole execution: each process may have
skipped other rounds when renumbering. -/
structure Matched (l : Nat → List (Act α)) (g : Nat → Nat → Nat) : Prop where
  mono : ∀ p r r', r < r' → g p r < g p r'
  nself : ∀ p, ∀ a ∈ l p, a.kind ≠ .send p ∧ a.kind ≠ .recv p
  /-- in every round, `p` sends to `q` the messages `q` expects from `p`, in the same order -/
  pairs : ∀ p q ρ, ((l p).filter (fun a => a.kind = .send q ∧ g p a.round = ρ)).map (·.content) =
    ((l q).filter (fun a => a.kind = .recv p ∧ g q a.round = ρ)).map (·.content)
  /-- a collective is in the same round everywhere -/
  colls : ∀ p q, ∀ a ∈ l p, ∀ b ∈ l q, ∀ c, a.kind = .coll c → b.kind = .coll c → g p a.round = g q b.round
  /-- collectives of a round are in the same order everywhere -/
  collOrder : ∀ p, (l p).Pairwise (fun a b => ∀ c c', a.kind = .coll c → b.kind = .coll c' → a.round = b.round → c < c')

/-- `r p` is the sequence of process `p` after the 2-phase sort of `l p`. -/
def Sorted2 (l r : Nat → List (Act α)) : Prop :=
  ∀ p, ∃ s, IsPtrSort (cmp2phase p) (l p) s ∧ sortSeq (l p) s = some (r p)

theorem eq_of_rounds (x : List (Nat × α)) : ∀ y : List (Nat × α), x.Pairwise (fun a b => a.1 ≤ b.1) → y.Pairwise (fun a b => a.1 ≤ b.1) →
    (∀ ρ, x.filter (fun a => a.1 = ρ) = y.filter (fun a => a.1 = ρ)) → x = y := by
  have empty : ∀ (r : Nat) (z : List (Nat × α)), (∀ a ∈ z, r < a.1) → z.filter (fun a => a.1 = r) = [] := by
    intro r z hz
    rw [List.filter_eq_nil_iff]
    intro a ha
    have := hz a ha
    simp only [decide_eq_true_eq]
    omega
  induction x with
  | nil =>
    intro y _ _ h
    cases y with
    | nil => rfl
    | cons b y => have := h b.1; simp at this
  | cons a x ih =>
    intro y hx hy h
    cases y with
    | nil => have := h a.1; simp at this
    | cons b y =>
      rw [List.pairwise_cons] at hx hy
      have hab : a.1 = b.1 := by
        rcases Nat.lt_trichotomy a.1 b.1 with c | c | c
        · have := h a.1
          rw [empty a.1 (b :: y) (by
            intro z hz
            rcases List.mem_cons.1 hz with rfl | hz
            · exact c
            · have := hy.1 z hz; omega)] at this
          simp at this
        · exact c
        · have := h b.1
          rw [empty b.1 (a :: x) (by
            intro z hz
            rcases List.mem_cons.1 hz with rfl | hz
            · exact c
            · have := hx.1 z hz; omega)] at this
          simp at this
      have e : a = b := by
        have := h a.1
        simp only [List.filter_cons, decide_true, if_true, hab] at this
        exact (List.cons.inj this).1
      subst e
      congr 1
      apply ih y hx.2 hy.2
      intro ρ
      have := h ρ
      by_cases c : a.1 = ρ
      · simpa [List.filter_cons, c] using this
      · simpa [List.filter_cons, c] using this

theorem sendKey_round (g : Nat → Nat → Nat) (p q ρ : Nat) (m : List (Act α)) : (m.filterMap (sendKey (g p) q)).filter (fun x => x.1 = ρ) =
    (m.filter (fun a => a.kind = .send q ∧ g p a.round = ρ)).map (fun a => (ρ, a.content)) := by
  induction m with
  | nil => rfl
  | cons a m ih =>
    by_cases c : a.kind = .send q
    · rw [List.filterMap_cons_some (b := (g p a.round, a.content)) (by simp [sendKey, c])]
      by_cases c2 : g p a.round = ρ
      · simp [List.filter_cons, c, c2, ih]
      · simp [List.filter_cons, c, c2, ih]
    · rw [List.filterMap_cons_none (by simp [sendKey, c])]
      simp [List.filter_cons, c, ih]

theorem recvKey_round (g : Nat → Nat → Nat) (p q ρ : Nat) (m : List (Act α)) : (m.filterMap (recvKey (g p) q)).filter (fun x => x.1 = ρ) =
    (m.filter (fun a => a.kind = .recv q ∧ g p a.round = ρ)).map (fun a => (ρ, a.content)) := by
  induction m with
  | nil => rfl
  | cons a m ih =>
    by_cases c : a.kind = .recv q
    · rw [List.filterMap_cons_some (b := (g p a.round, a.content)) (by simp [recvKey, c])]
      by_cases c2 : g p a.round = ρ
      · simp [List.filter_cons, c, c2, ih]
      · simp [List.filter_cons, c, c2, ih]
    · rw [List.filterMap_cons_none (by simp [recvKey, c])]
      simp [List.filter_cons, c, ih]

theorem sendKey_le {g : Nat → Nat} {q : Nat} {a b : Act α} (h : g a.round ≤ g b.round) (x : Nat × α)
    (hx : sendKey g q a = some x) (y : Nat × α) (hy : sendKey g q b = some y) : x.1 ≤ y.1 := by
  unfold sendKey at hx hy
  split at hx <;> split at hy <;> simp_all
  rw [← hx, ← hy]; exact h

theorem recvKey_le {g : Nat → Nat} {q : Nat} {a b : Act α} (h : g a.round ≤ g b.round) (x : Nat × α)
    (hx : recvKey g q a = some x) (y : Nat × α) (hy : recvKey g q b = some y) : x.1 ≤ y.1 := by
  unfold recvKey at hx hy
  split at hx <;> split at hy <;> simp_all
  rw [← hx, ← hy]; exact h

/-- Matching sequences sorted by any comparison that keeps the order of messages
of a round with the same peer and direction, and that fits to the order of
messages by phases `ph`, can be executed. -/
theorem execOKBy_of_sorted {ph : Nat → Nat → Nat} {cmp : Nat → Act α × Nat → Act α × Nat → Int}
    {l : Nat → List (Act α)} {g : Nat → Nat → Nat} (hm : Matched l g)
    {s : Nat → List (Act α × Nat)} (hs1 : ∀ p, IsPtrSort (cmp p) (l p) (s p))
    (hround : ∀ p a b, cmp p a b ≤ 0 → a.1.round ≤ b.1.round)
    (hpos : ∀ p a b, cmp p a b ≤ 0 → a.1.round = b.1.round → a.1.kind = b.1.kind → a.2 ≤ b.2)
    (horder : ∀ p, ∀ a ∈ (l p).zipIdx, ∀ b ∈ (l p).zipIdx, cmp p a b ≤ 0 → ∀ ka kb,
      gkeyBy ph (g p) p a.1 = some ka → gkeyBy ph (g p) p b.1 = some kb → ¬ klt kb ka) :
    ExecOKBy ph (fun p => (s p).map (·.1)) g := by
  have hmono : ∀ p a b, a ≤ b → g p a ≤ g p b := by
    intro p a b h
    rcases Nat.lt_or_eq_of_le h with h | h
    · exact Nat.le_of_lt (hm.mono p a b h)
    · rw [h]
  have hinj : ∀ p a b, g p a = g p b → a = b := by
    intro p a b h
    rcases Nat.lt_trichotomy a b with c | c | c
    · have := hm.mono p a b c; omega
    · exact c
    · have := hm.mono p b a c; omega
  have hperm : ∀ p, ((s p).map (·.1)).Perm (l p) := by
    intro p
    have := (hs1 p).1.map (·.1)
    rwa [List.zipIdx_map_fst] at this
  have hclass : ∀ p k ρ, ((s p).map (·.1)).filter (fun a => a.kind = k ∧ g p a.round = ρ) =
      (l p).filter (fun a => a.kind = k ∧ g p a.round = ρ) := by
    intro p k ρ
    have h := hs1 p
    have hpw : (s p).Pairwise (fun a b => a.1.round = b.1.round → a.1.kind = b.1.kind → a.2 < b.2) := by
      refine (h.2.and (ptrSort_nodup h)).imp ?_
      rintro a b ⟨h1, h2⟩ e hk
      exact Nat.lt_of_le_of_ne (hpos p a b h1 e hk) h2
    have hz : (l p).zipIdx.Pairwise (fun a b => a.1.round = b.1.round → a.1.kind = b.1.kind → a.2 < b.2) := by
      rw [List.pairwise_iff_getElem]
      intro i j hi hj hij
      simp only [List.length_zipIdx] at hi hj
      simpa using fun _ _ => hij
    have e : (s p).filter (fun a => a.1.kind = k ∧ g p a.1.round = ρ) =
        (l p).zipIdx.filter (fun a => a.1.kind = k ∧ g p a.1.round = ρ) := by
      refine List.Perm.eq_of_pairwise (le := fun a b : Act α × Nat => a.1.round = b.1.round → a.1.kind = b.1.kind → a.2 < b.2)
        ?_ (hpw.sublist List.filter_sublist) (hz.sublist List.filter_sublist) (h.1.filter _)
      intro a b ha hb h1 h2
      have ka := (List.mem_filter.1 ha).2
      have kb := (List.mem_filter.1 hb).2
      simp only [decide_eq_true_eq] at ka kb
      have e1 := hinj p a.1.round b.1.round (by rw [ka.2, kb.2])
      have e2 : a.1.kind = b.1.kind := by rw [ka.1, kb.1]
      have := h1 e1 e2
      have := h2 e1.symm e2.symm
      omega
    have hl : l p = (l p).zipIdx.map (·.1) := (List.zipIdx_map_fst _ _).symm
    conv_rhs => rw [hl]
    rw [List.filter_map, List.filter_map]
    congr 1
  have hsort : ∀ p, ((s p).map (·.1)).Pairwise (fun a b => g p a.round ≤ g p b.round) := by
    intro p
    rw [List.pairwise_map]
    exact (hs1 p).2.imp (fun h => hmono p _ _ (hround p _ _ h))
  refine ⟨?_, ?_, ?_, ?_⟩
  · intro p
    rw [List.pairwise_map]
    have hall : (s p).Pairwise (fun a b => a ∈ (l p).zipIdx ∧ b ∈ (l p).zipIdx) :=
      List.pairwise_of_forall_mem_list (fun a ha b hb => ⟨(hs1 p).1.subset ha, (hs1 p).1.subset hb⟩)
    refine ((hs1 p).2.and hall).imp ?_
    rintro a b ⟨hc, hma, hmb⟩
    exact horder p a hma b hmb hc
  · intro p a ha
    exact hm.nself p a ((hperm p).subset ha)
  · intro p q
    apply eq_of_rounds
    · rw [List.pairwise_filterMap]
      refine (hsort p).imp ?_
      exact fun h x hx y hy => sendKey_le h x hx y hy
    · rw [List.pairwise_filterMap]
      refine (hsort q).imp ?_
      exact fun h x hx y hy => recvKey_le h x hx y hy
    · intro ρ
      rw [sendKey_round, recvKey_round, hclass, hclass]
      have := congrArg (List.map (fun c => (ρ, c))) (hm.pairs p q ρ)
      rw [List.map_map, List.map_map] at this
      exact this
  · intro p q a ha b hb c
    exact hm.colls p q a ((hperm p).subset ha) b ((hperm q).subset hb) c

theorem execOK_of_matched {l r : Nat → List (Act α)} {g : Nat → Nat → Nat} (hm : Matched l g) (hs : Sorted2 l r) :
    ∃ L : Nat → List (Act α), ExecOK L g ∧ (∀ p, (r p).map (·.er) = (L p).map (·.er)) ∧ ∀ p, (L p).length = (l p).length := by
  choose s hs1 hs2 using hs
  refine ⟨fun p => (s p).map (·.1), (execOKBy_of_sorted hm hs1 (fun _ _ _ => cmp2phase_round)
    (fun _ _ _ h e hk => cmp2phase_pos h e (Or.inl hk)) ?_).of2, ?_, ?_⟩
  · intro p a hma b hmb hc ka kb hka hkb
    rw [← gkey_eq] at hka hkb
    have nsa := hm.nself p a.1 (List.fst_mem_of_mem_zipIdx hma)
    have nsb := hm.nself p b.1 (List.fst_mem_of_mem_zipIdx hmb)
    rw [cmp2phase_le_iff] at hc
    rw [klt_iff]
    rcases hc with hlt | ⟨heq, hc⟩
    · have hg := hm.mono p _ _ hlt
      have e1 : ka.1 = g p a.1.round := by
        unfold gkey at hka
        split at hka <;> first | (injection hka with hka; rw [← hka]) | cases hka
      have e2 : kb.1 = g p b.1.round := by
        unfold gkey at hkb
        split at hkb <;> first | (injection hkb with hkb; rw [← hkb]) | cases hkb
      omega
    · have heq' : g p a.1.round = g p b.1.round := by rw [heq]
      have hcoll : ∀ c c', a.1.kind = .coll c → b.1.kind = .coll c' → a.2 ≤ b.2 → c ≤ c' := by
        intro c c' h1 h2 hpos
        obtain ⟨a, i⟩ := a
        obtain ⟨b, j⟩ := b
        obtain ⟨hi, ea⟩ := List.mem_zipIdx' hma
        obtain ⟨hj, eb⟩ := List.mem_zipIdx' hmb
        simp only at hpos h1 h2 heq
        rcases Nat.lt_or_eq_of_le hpos with hij | hij
        · have := List.pairwise_iff_getElem.1 (hm.collOrder p) i j hi hj hij
          rw [← ea, ← eb] at this
          exact Nat.le_of_lt (this c c' h1 h2 heq)
        · subst hij
          rw [ea, ← eb, h2] at h1
          injection h1 with h1
          omega
      unfold gkey at hka hkb
      cases ea : a.1.kind with
      | other => rw [ea] at hka; simp at hka
      | coll c =>
        cases eb : b.1.kind with
        | other => rw [eb] at hkb; simp at hkb
        | coll c' =>
          have hcc := hcoll c c' ea eb
          rw [ea] at hka hc; rw [eb] at hkb hc
          cases hka; cases hkb
          simp only [phase, peer] at hc ⊢
          omega
        | send q =>
          rw [ea] at hka; rw [eb] at hkb
          cases hka; cases hkb
          simp only
          split <;> omega
        | recv q =>
          rw [ea] at hka; rw [eb] at hkb
          cases hka; cases hkb
          simp only
          split <;> omega
      | send q =>
        have : q ≠ p := fun e => nsa.1 (by rw [ea, e])
        rw [ea] at hka hc
        cases eb : b.1.kind with
        | other => rw [eb] at hkb; simp at hkb
        | coll c' =>
          rw [eb] at hkb hc
          cases hka; cases hkb
          simp only [phase, peer] at hc ⊢
          (repeat' split at hc) <;> (repeat' split) <;> omega
        | send q' =>
          have : q' ≠ p := fun e => nsb.1 (by rw [eb, e])
          rw [eb] at hkb hc
          cases hka; cases hkb
          simp only [phase, peer] at hc ⊢
          (repeat' split at hc) <;> (repeat' split) <;> omega
        | recv q' =>
          have : q' ≠ p := fun e => nsb.2 (by rw [eb, e])
          rw [eb] at hkb hc
          cases hka; cases hkb
          simp only [phase, peer] at hc ⊢
          (repeat' split at hc) <;> (repeat' split) <;> omega
      | recv q =>
        have : q ≠ p := fun e => nsa.2 (by rw [ea, e])
        rw [ea] at hka hc
        cases eb : b.1.kind with
        | other => rw [eb] at hkb; simp at hkb
        | coll c' =>
          rw [eb] at hkb hc
          cases hka; cases hkb
          simp only [phase, peer] at hc ⊢
          (repeat' split at hc) <;> (repeat' split) <;> omega
        | send q' =>
          have : q' ≠ p := fun e => nsb.1 (by rw [eb, e])
          rw [eb] at hkb hc
          cases hka; cases hkb
          simp only [phase, peer] at hc ⊢
          (repeat' split at hc) <;> (repeat' split) <;> omega
        | recv q' =>
          have : q' ≠ p := fun e => nsb.2 (by rw [eb, e])
          rw [eb] at hkb hc
          cases hka; cases hkb
          simp only [phase, peer] at hc ⊢
          (repeat' split at hc) <;> (repeat' split) <;> omega
  · intro p
    obtain ⟨r', h1, _, _, her⟩ :=
      sortSeq_reordered (same := samePhase) (hs1 p) (fun _ _ => cmp2phase_round) (fun _ _ => cmp2phase_pos)
    rw [hs2 p] at h1
    cases h1
    rw [her, List.map_map]
    rfl
  · intro p
    have := (hs1 p).1.length_eq
    simpa using this

/-- C20: if the sequences of all processes match, then no execution of the sorted
sequences gets stuck: in every reachable state either all is done, or there is a
step that needs no buffering. -/
theorem C20_deadlock_free (l r : Nat → List (Act α)) (g : Nat → Nat → Nat) (hm : Matched l g) (hs : Sorted2 l r)
    (k : Nat) (st : EState α) (h : ESteps k (EState.start (fun p => (r p).map (·.er))) st) :
    EDone st ∨ ∃ st', RStep st st' := by
  obtain ⟨L, ok, e, _⟩ := execOK_of_matched hm hs
  have : (fun p => (r p).map (·.er)) = fun p => (L p).map (·.er) := funext e
  rw [this] at h
  obtain ⟨t, ch, inv⟩ := EInv.reach ok h
  exact inv.progress ok

/-- C20: every receive gets the message meant for it. -/
theorem C20_pairing (l r : Nat → List (Act α)) (g : Nat → Nat → Nat) (hm : Matched l g) (hs : Sorted2 l r)
    (k : Nat) (st : EState α) (h : ESteps k (EState.start (fun p => (r p).map (·.er))) st)
    (p q : Nat) (y : α) (t : Prog α) (hq : st.rem q = (.recv p, y) :: t) :
    (∀ x c, st.chan p q = x :: c → x = y) ∧
    (∀ x u, p ≠ q → st.chan p q = [] → st.rem p = (.send q, x) :: u → x = y) := by
  obtain ⟨L, ok, e, _⟩ := execOK_of_matched hm hs
  have : (fun p => (r p).map (·.er)) = fun p => (L p).map (·.er) := funext e
  rw [this] at h
  obtain ⟨t, ch, inv⟩ := EInv.reach ok h
  exact ⟨fun x c hc => (inv.step_recv hq hc).1, fun x u hne hc hp => (inv.step_meet hne hp hq hc).1⟩

/-- Number of actions left in the first `n` processes. -/
def leftOver (n : Nat) (st : EState α) : Nat := ((List.range n).map (fun p => (st.rem p).length)).sum

theorem sum_range_lt (f f' : Nat → Nat) (n : Nat) (h : ∀ p, f' p ≤ f p) (p : Nat) (hp : p < n) (hlt : f' p < f p) :
    ((List.range n).map f').sum < ((List.range n).map f).sum := by
  have hle : ∀ m, ((List.range m).map f').sum ≤ ((List.range m).map f).sum := by
    intro m
    induction m with
    | zero => simp
    | succ m ih =>
      have := h m
      simp only [List.range_succ, List.map_append, List.sum_append, List.map_cons, List.map_nil, List.sum_cons, List.sum_nil]
      omega
  induction n with
  | zero => omega
  | succ n ih =>
    have h1 := hle n
    have h2 := h n
    simp only [List.range_succ, List.map_append, List.sum_append, List.map_cons, List.map_nil, List.sum_cons, List.sum_nil]
    by_cases c : p = n
    · subst c; omega
    · have := ih (by omega); omega

theorem EStep.shrinks {n : Nat} {st st' : EState α} (h : EStep st st') (hn : ∀ p, n ≤ p → st.rem p = []) :
    leftOver n st' < leftOver n st ∧ ∀ p, n ≤ p → st'.rem p = [] := by
  have pop : ∀ p x (t : Prog α), st.rem p = x :: t → p < n := by
    intro p x t h
    by_contra hc
    rw [hn p (by omega)] at h
    simp at h
  have fin : ∀ rem' : Nat → Prog α, (∀ p, (rem' p).length ≤ (st.rem p).length) → (∃ p, p < n ∧ (rem' p).length < (st.rem p).length) →
      ((List.range n).map (fun p => (rem' p).length)).sum < leftOver n st ∧ ∀ p, n ≤ p → rem' p = [] := by
    rintro rem' h1 ⟨p, hp, h2⟩
    refine ⟨sum_range_lt _ _ n h1 p hp h2, ?_⟩
    intro q hq
    have := h1 q
    rw [hn q hq] at this
    exact List.length_eq_zero_iff.1 (by simpa using this)
  have one : ∀ p x (t : Prog α), st.rem p = x :: t →
      (∀ q, (setRem st.rem p t q).length ≤ (st.rem q).length) ∧ (setRem st.rem p t p).length < (st.rem p).length := by
    intro p x t h
    constructor
    · intro q
      unfold setRem
      split
      · rename_i e; rw [e, h]; simp
      · exact Nat.le_refl _
    · simp [setRem, h]
  cases h with
  | sync _ h =>
    cases h with
    | loc p x t h => exact fin _ (one p _ t h).1 ⟨p, pop p _ t h, (one p _ t h).2⟩
    | recv p q x y t c h hc => exact fin _ (one q _ t h).1 ⟨q, pop q _ t h, (one q _ t h).2⟩
    | meet p q x y t t' hne hp hq hc =>
      refine fin _ ?_ ⟨p, pop p _ t hp, ?_⟩
      · intro a
        simp only [setRem]
        split
        · rename_i e; rw [e, hq]; simp
        · split
          · rename_i e; rw [e, hp]; simp
          · exact Nat.le_refl _
      · simp [setRem, hne, hp]
    | coll c hex _ =>
      obtain ⟨p, x, t, h⟩ := hex
      refine fin _ ?_ ⟨p, pop p _ t h, ?_⟩
      · intro a
        simp only [popColl]
        split
        · rw [List.length_tail]; omega
        · exact Nat.le_refl _
      · simp [popColl, h]
  | buf p q x t h => exact fin _ (one p _ t h).1 ⟨p, pop p _ t h, (one p _ t h).2⟩

/-- C20: executions are finite: `n` processes never do more steps than there are
actions. -/
theorem C20_terminates (n : Nat) (l r : Nat → List (Act α)) (hs : Sorted2 l r) (hn : ∀ p, n ≤ p → l p = [])
    (k : Nat) (st : EState α) (h : ESteps k (EState.start (fun p => (r p).map (·.er))) st) :
    k ≤ ((List.range n).map (fun p => (l p).length)).sum := by
  have hlen : ∀ p, (r p).length = (l p).length := by
    intro p
    obtain ⟨s, h1, h2⟩ := hs p
    obtain ⟨r', h3, _, _, her⟩ :=
      sortSeq_reordered (same := samePhase) h1 (fun _ _ => cmp2phase_round) (fun _ _ => cmp2phase_pos)
    rw [h2] at h3
    cases h3
    have := congrArg List.length her
    simp only [List.length_map] at this
    rw [this, h1.1.length_eq, List.length_zipIdx]
  have key : k + leftOver n st ≤ leftOver n (EState.start (fun p => (r p).map (·.er))) ∧ ∀ p, n ≤ p → st.rem p = [] := by
    generalize hst : EState.start (fun p => (r p).map (·.er)) = s0 at h
    induction h with
    | nil =>
      subst hst
      refine ⟨by omega, fun p hp => ?_⟩
      have := hlen p
      rw [hn p hp] at this
      simp only [EState.start, List.map_eq_nil_iff]
      exact List.length_eq_zero_iff.1 this
    | snoc h hstep ih =>
      obtain ⟨i1, i2⟩ := ih hst
      have := hstep.shrinks i2
      exact ⟨by omega, this.2⟩
  have : leftOver n (EState.start (fun p => (r p).map (·.er))) = ((List.range n).map (fun p => (l p).length)).sum := by
    unfold leftOver EState.start
    simp only [List.length_map, hlen]
  omega

/-- Three processes exchanging messages around a ring in both directions (all
sends listed first), with a collective at the end. -/
def ringDemo (p : Nat) : List (Act Nat) :=
  if p < 3 then
    [⟨0, .send ((p + 1) % 3), 10 * p + (p + 1) % 3⟩, ⟨0, .send ((p + 2) % 3), 10 * p + (p + 2) % 3⟩,
     ⟨0, .recv ((p + 1) % 3), 10 * ((p + 1) % 3) + p⟩, ⟨0, .recv ((p + 2) % 3), 10 * ((p + 2) % 3) + p⟩,
     ⟨1, .coll 0, 0⟩]
  else []

theorem ringDemo_out (p : Nat) (h : 3 ≤ p) : ringDemo p = [] := by rw [ringDemo, if_neg (by omega)]

/-- The hypotheses of C20 can be met. -/
example : Matched ringDemo (fun _ r => r) := by
  have lt3 : ∀ P : Nat → Prop, (∀ p, 3 ≤ p → P p) → P 0 → P 1 → P 2 → ∀ p, P p := by
    intro P h h0 h1 h2 p
    by_cases c : 3 ≤ p
    · exact h p c
    · have : p = 0 ∨ p = 1 ∨ p = 2 := by omega
      rcases this with rfl | rfl | rfl <;> assumption
  have rounds : ∀ p, ∀ a ∈ ringDemo p, a.round < 2 := by
    refine lt3 _ (fun p h => by simp [ringDemo_out p h]) ?_ ?_ ?_ <;> decide
  refine ⟨fun _ _ _ h => h, ?_, ?_, ?_, ?_⟩
  · refine lt3 _ (fun p h => by simp [ringDemo_out p h]) ?_ ?_ ?_ <;> decide
  · intro p q ρ
    by_cases c : ρ < 2
    · revert p q
      have : ρ = 0 ∨ ρ = 1 := by omega
      have peers : ∀ p, ∀ a ∈ ringDemo p, ∀ x, (a.kind = .send x ∨ a.kind = .recv x) → x < 3 := by
        refine lt3 _ (fun p h => by simp [ringDemo_out p h]) ?_ ?_ ?_ <;>
        · intro a ha x hx
          have key : (ringDemo 0 ++ ringDemo 1 ++ ringDemo 2).all (fun a => match a.kind with
            | .send x => x < 3 | .recv x => x < 3 | _ => true) = true := by decide
          have hm : a ∈ ringDemo 0 ++ ringDemo 1 ++ ringDemo 2 := by simp [ha]
          have := List.all_eq_true.1 key a hm
          rcases hx with hx | hx <;> simpa [hx] using this
      have hp : ∀ q, 3 ≤ q → ∀ p, ((ringDemo p).filter (fun a => a.kind = .send q ∧ a.round = ρ)) = [] ∧
          ((ringDemo p).filter (fun a => a.kind = .recv q ∧ a.round = ρ)) = [] := by
        intro q hq p
        constructor
        · rw [List.filter_eq_nil_iff]
          intro a ha h
          simp only [decide_eq_true_eq] at h
          have := peers p a ha q (Or.inl h.1); omega
        · rw [List.filter_eq_nil_iff]
          intro a ha h
          simp only [decide_eq_true_eq] at h
          have := peers p a ha q (Or.inr h.1); omega
      refine lt3 _ ?_ ?_ ?_ ?_
      · intro p h q
        rw [ringDemo_out p h, (hp p h q).2]; rfl
      all_goals
        refine lt3 _ ?_ ?_ ?_ ?_
        · intro q h
          rw [ringDemo_out q h, (hp q h _).1]; rfl
        all_goals rcases this with rfl | rfl <;> decide
    · have : ∀ (p : Nat) (k : AKind), ((ringDemo p).filter (fun a => a.kind = k ∧ a.round = ρ)) = [] := by
        intro p k
        rw [List.filter_eq_nil_iff]
        intro a ha h
        simp only [decide_eq_true_eq] at h
        have := rounds p a ha; omega
      rw [this, this]
  · intro p q a ha b hb c h1 h2
    have : ∀ p, ∀ a ∈ ringDemo p, ∀ c, a.kind = .coll c → a.round = 1 := by
      refine lt3 _ (fun p h => by simp [ringDemo_out p h]) ?_ ?_ ?_ <;>
      · intro a ha c hc
        have key : (ringDemo 0 ++ ringDemo 1 ++ ringDemo 2).all (fun a => match a.kind with
          | .coll _ => a.round == 1 | _ => true) = true := by decide
        have hm : a ∈ ringDemo 0 ++ ringDemo 1 ++ ringDemo 2 := by simp [ha]
        simpa [hc] using List.all_eq_true.1 key a hm
    rw [this p a ha c h1, this q b hb c h2]
  · intro p
    by_cases c : 3 ≤ p
    · rw [ringDemo_out p c]; exact List.Pairwise.nil
    · rw [ringDemo, if_pos (by omega)]
      simp [List.pairwise_cons]

/-- Without the sort, executing the demo with rendezvous messages gets stuck at once. -/
theorem C20_unsorted_deadlock : ∀ st', ¬ RStep (EState.start (fun p => (ringDemo p).map (·.er))) st' := by
  have hd : ∀ p, p < 3 → ∃ x t, (ringDemo p).map (·.er) = (AKind.send ((p + 1) % 3), x) :: t := by
    intro p hp
    rw [ringDemo, if_pos hp]
    exact ⟨_, _, rfl⟩
  have hk : ∀ p k x t, (ringDemo p).map (·.er) = (k, x) :: t → ∃ y, k = AKind.send y := by
    intro p k x t h
    by_cases c : p < 3
    · obtain ⟨x', t', e⟩ := hd p c
      rw [h] at e
      simp only [List.cons.injEq, Prod.mk.injEq] at e
      exact ⟨_, e.1.1⟩
    · rw [ringDemo_out p (by omega)] at h
      simp at h
  intro st' h
  cases h with
  | loc p x t h => obtain ⟨y, e⟩ := hk p _ x t h; cases e
  | recv p q x y t c h hc => obtain ⟨y, e⟩ := hk q _ _ t h; cases e
  | meet p q x y t t' hne hp hq hc => obtain ⟨y, e⟩ := hk q _ _ t' hq; cases e
  | coll c hex _ =>
    obtain ⟨p, x, t, h⟩ := hex
    obtain ⟨y, e⟩ := hk p _ x t h; cases e

end Laik
