import Verif.Model.DigitSort
/-!
# C59: sorting by digits of ranks
-/

namespace Laik

variable {α : Type}

/-- All messages of process `me` are for or from other processes, with ranks that
are an `int`. -/
def PeersOK (me : Nat) (l : List (Act α)) : Prop :=
  me < 2 ^ 31 ∧ ∀ a ∈ l, ∀ q, (a.kind = .send q ∨ a.kind = .recv q) → q ≠ me ∧ q < 2 ^ 31

/-- An action that is no send and no receive is the only one of its round. -/
def LocalAlone (l : List (Act α)) : Prop :=
  ∀ i j (hi : i < l.length) (hj : j < l.length), i ≠ j → l[i].round = l[j].round → l[i].kind.isLocal = false

/-- `r p` is the sequence of process `p` after the sort by digits of `l p`. -/
def SortedDigits (l r : Nat → List (Act α)) : Prop :=
  ∀ p, ∃ s, DigitRun p (l p) s ∧ sortSeq (l p) s = some (r p)

theorem digitKey_local {me : Nat} {k : AKind} (h : k.isLocal = true) : digitKey me k = none := by
  cases k <;> simp [AKind.isLocal, digitKey] at *

/-- C59: with a copy, a reduction or any other action which is neither a send nor
a receive together with some other action in a round, the sort does not come to
an end: an assertion fails.  Both the 2-phase sort and the comment of the
function have such actions sorted to the front. -/
theorem C59_local_aborts (me : Nat) (l : List (Act α)) (h : ¬ LocalAlone l) (s : List (Act α × Nat)) : ¬ DigitRun me l s := by
  intro hr
  apply h
  intro i j hi hj hij hround
  have hpw := hr.pairwise
  have mem : ∀ k (hk : k < l.length), (l[k], k) ∈ s := by
    intro k hk
    rw [hr.1.mem_iff, List.mem_zipIdx_iff_getElem?]
    simp [hk]
  have key : ∀ a b : Act α × Nat, DigitLe me a b → a.1.round = b.1.round → digitKey me a.1.kind ≠ none ∧ digitKey me b.1.kind ≠ none := by
    intro a b hab e
    rw [digitLe_iff] at hab
    rcases hab with hab | ⟨_, x, y, hx, hy, _⟩
    · omega
    · rw [hx, hy]; simp
  have both : DigitLe me (l[i], i) (l[j], j) ∨ DigitLe me (l[j], j) (l[i], i) := by
    obtain ⟨a, ha, ea⟩ := List.getElem_of_mem (mem i hi)
    obtain ⟨b, hb, eb⟩ := List.getElem_of_mem (mem j hj)
    rcases Nat.lt_trichotomy a b with c | c | c
    · left; rw [← ea, ← eb]; exact List.pairwise_iff_getElem.1 hpw a b ha hb c
    · subst c
      rw [ea] at eb
      exact absurd (congrArg Prod.snd eb) hij
    · right; rw [← ea, ← eb]; exact List.pairwise_iff_getElem.1 hpw b a hb ha c
  cases hl : l[i].kind.isLocal with
  | false => rfl
  | true =>
    exfalso
    rcases both with h1 | h1
    · exact (key _ _ h1 hround).1 (digitKey_local hl)
    · exact (key _ _ h1 hround.symm).2 (digitKey_local hl)

/-- C59: otherwise no comparison of two actions of the sequence fails, and there is
exactly one result. -/
theorem C59_sort_unique (me : Nat) (l : List (Act α)) (hp : PeersOK me l) (hl : LocalAlone l) :
    (∀ i j (hi : i < l.length) (hj : j < l.length), i ≠ j → ∃ v, cmpDigits me (l[i], i) (l[j], j) = some v) ∧
    (∃ s, DigitRun me l s) ∧ ∀ s s', DigitRun me l s → DigitRun me l s' → s = s' := by
  have hkey : ∀ a ∈ l, a.kind.isLocal = false → ∃ x, digitKey me a.kind = some x := by
    intro a ha hk
    cases e : a.kind with
    | other => rw [e] at hk; simp [AKind.isLocal] at hk
    | coll c => rw [e] at hk; simp [AKind.isLocal] at hk
    | send q =>
      have := hp.2 a ha q (Or.inl e)
      obtain ⟨i, hi⟩ := diffBit_some hp.1 this.2 (Ne.symm this.1)
      exact ⟨(digitPhase me q, q), by simp [digitKey, hi]⟩
    | recv q =>
      have := hp.2 a ha q (Or.inr e)
      obtain ⟨i, hi⟩ := diffBit_some hp.1 this.2 (Ne.symm this.1)
      exact ⟨(digitPhase q me, q), by simp [digitKey, hi]⟩
  refine ⟨?_, ?_, ?_⟩
  · intro i j hi hj hij
    by_cases hr : l[i].round = l[j].round
    · obtain ⟨x, hx⟩ := hkey _ (List.getElem_mem hi) (hl i j hi hj hij hr)
      obtain ⟨y, hy⟩ := hkey _ (List.getElem_mem hj) (hl j i hj hi (Ne.symm hij) hr.symm)
      obtain ⟨a, h1, h2, _⟩ := digitKey_some hx
      obtain ⟨b, h3, h4, _⟩ := digitKey_some hy
      unfold cmpDigits
      rw [if_neg (by simpa using hr)]
      simp only [h1, h3, h2, h4]
      repeat' split
      all_goals exact ⟨_, rfl⟩
    · unfold cmpDigits
      rw [if_pos hr]
      exact ⟨_, rfl⟩
  · -- equal positions compare as equal in the sort used to show that a result exists
    let le : Act α × Nat → Act α × Nat → Bool := fun a b =>
      decide (a.1.round < b.1.round ∨ a.1.round = b.1.round ∧
        (((digitKey me a.1.kind).getD (0, 0)).1 < ((digitKey me b.1.kind).getD (0, 0)).1 ∨
         ((digitKey me a.1.kind).getD (0, 0)).1 = ((digitKey me b.1.kind).getD (0, 0)).1 ∧
          (((digitKey me a.1.kind).getD (0, 0)).2 < ((digitKey me b.1.kind).getD (0, 0)).2 ∨
           ((digitKey me a.1.kind).getD (0, 0)).2 = ((digitKey me b.1.kind).getD (0, 0)).2 ∧ a.2 ≤ b.2)))
    have hperm := List.mergeSort_perm l.zipIdx le
    refine ⟨l.zipIdx.mergeSort le, hperm, ?_⟩
    apply List.Pairwise.isChain
    have hpw := List.pairwise_mergeSort (le := le)
      (fun a b c h1 h2 => by simp only [le, decide_eq_true_eq] at *; omega)
      (fun a b => by simp only [le, Bool.or_eq_true, decide_eq_true_eq]; omega) l.zipIdx
    have hnd : (l.zipIdx.mergeSort le).Pairwise (fun a b => a.2 ≠ b.2) := by
      have : ((l.zipIdx.mergeSort le).map (·.2)).Nodup := by
        rw [(hperm.map (·.2)).nodup_iff, List.zipIdx_map_snd]
        exact List.nodup_range'
      exact List.pairwise_map.1 this
    have hall : (l.zipIdx.mergeSort le).Pairwise (fun a b => a ∈ l.zipIdx ∧ b ∈ l.zipIdx) :=
      List.pairwise_of_forall_mem_list (fun a ha b hb => ⟨hperm.subset ha, hperm.subset hb⟩)
    refine ((hpw.and hnd).and hall).imp ?_
    rintro ⟨a, i⟩ ⟨b, j⟩ ⟨⟨h1, h2⟩, h3, h4⟩
    obtain ⟨hi, ea⟩ : ∃ hi : i < l.length, a = l[i] := ⟨(List.mem_zipIdx' h3).1, (List.mem_zipIdx' h3).2⟩
    obtain ⟨hj, eb⟩ : ∃ hj : j < l.length, b = l[j] := ⟨(List.mem_zipIdx' h4).1, (List.mem_zipIdx' h4).2⟩
    subst ea
    subst eb
    show DigitLe me _ _
    simp only [le, decide_eq_true_eq] at h1
    rw [digitLe_iff]
    rcases h1 with h1 | ⟨hr, h1⟩
    · exact Or.inl h1
    · obtain ⟨x, hx⟩ := hkey _ (List.getElem_mem hi) (hl i j hi hj h2 hr)
      obtain ⟨y, hy⟩ := hkey _ (List.getElem_mem hj) (hl j i hj hi (Ne.symm h2) hr.symm)
      rw [hx, hy] at h1
      exact Or.inr ⟨hr, x, y, hx, hy, h1⟩
  · intro s s' h h'
    refine List.Perm.eq_of_pairwise (fun a b ha hb h1 h2 => ?_) h.pairwise h'.pairwise (h.1.trans h'.1.symm)
    have ma := h.1.subset ha
    have mb := h'.1.subset hb
    rw [digitLe_iff] at h1 h2
    have hpos : a.2 = b.2 := by
      rcases h1 with h1 | ⟨e1, x, y, hx, hy, h1⟩
      · omega
      · rcases h2 with h2 | ⟨e2, y', x', hy', hx', h2⟩
        · omega
        · rw [hx] at hx'; rw [hy] at hy'
          cases hx'; cases hy'
          omega
    obtain ⟨a, i⟩ := a
    obtain ⟨b, j⟩ := b
    simp only at hpos
    subst hpos
    have := (List.mem_zipIdx' ma).2
    have := (List.mem_zipIdx' mb).2
    simp_all

/-- C59: a sort that comes to an end does not fail later; the result is a
permutation with monotone rounds; in a round, messages with the same peer and
direction keep their order; if anything changes, the rounds are numbered from 0
without gaps.
Missing for the full claim: sequences with local actions, see
`C59_local_aborts`. -/
theorem C59_sort_partial (me : Nat) (l : List (Act α)) (s : List (Act α × Nat)) (h : DigitRun me l s) :
    ∃ r, sortSeq l s = some r ∧ Reordered samePhase l r ∧ (r ≠ l → Gapless r) := by
  obtain ⟨r, h1, h2, h3, _⟩ := sortSeq_reordered (same := samePhase) h.sort (fun _ _ => cmpDigitsI_round) (fun _ _ => cmpDigitsI_pos)
  exact ⟨r, h1, h2, h3⟩

theorem execOK_of_digits {l r : Nat → List (Act α)} {g : Nat → Nat → Nat} (hm : Matched l g) (hs : SortedDigits l r) :
    ∃ L : Nat → List (Act α), ExecOKBy digitPhase L g ∧ (∀ p, (r p).map (·.er) = (L p).map (·.er)) ∧
      ∀ p, (L p).length = (l p).length := by
  choose s hs1 hs2 using hs
  refine ⟨fun p => (s p).map (·.1), execOKBy_of_sorted hm (fun p => (hs1 p).sort) (fun _ _ _ => cmpDigitsI_round)
    (fun _ _ _ h e hk => cmpDigitsI_pos h e (Or.inl hk))
    (fun p a _ b _ hc ka kb => digit_order hm p a b hc ka kb), ?_, ?_⟩
  · intro p
    obtain ⟨r', h1, _, _, her⟩ :=
      sortSeq_reordered (same := samePhase) (hs1 p).sort (fun _ _ => cmpDigitsI_round) (fun _ _ => cmpDigitsI_pos)
    rw [hs2 p] at h1
    cases h1
    rw [her, List.map_map]
    rfl
  · intro p
    have := (hs1 p).1.length_eq
    simpa using this

/-- C59: if the sequences of all processes match, then no execution of the
sequences sorted by digits gets stuck: in every reachable state either all is
done, or there is a step that needs no buffering. -/
theorem C59_deadlock_free (l r : Nat → List (Act α)) (g : Nat → Nat → Nat) (hm : Matched l g) (hs : SortedDigits l r)
    (k : Nat) (st : EState α) (h : ESteps k (EState.start (fun p => (r p).map (·.er))) st) :
    EDone st ∨ ∃ st', RStep st st' := by
  obtain ⟨L, ok, e, _⟩ := execOK_of_digits hm hs
  have : (fun p => (r p).map (·.er)) = fun p => (L p).map (·.er) := funext e
  rw [this] at h
  obtain ⟨t, ch, inv⟩ := EInv.reachBy ok h
  exact inv.progressBy digitPhase_pos ok

/-- C59: every receive gets the message meant for it. -/
theorem C59_pairing (l r : Nat → List (Act α)) (g : Nat → Nat → Nat) (hm : Matched l g) (hs : SortedDigits l r)
    (k : Nat) (st : EState α) (h : ESteps k (EState.start (fun p => (r p).map (·.er))) st)
    (p q : Nat) (y : α) (t : Prog α) (hq : st.rem q = (.recv p, y) :: t) :
    (∀ x c, st.chan p q = x :: c → x = y) ∧
    (∀ x u, p ≠ q → st.chan p q = [] → st.rem p = (.send q, x) :: u → x = y) := by
  obtain ⟨L, ok, e, _⟩ := execOK_of_digits hm hs
  have : (fun p => (r p).map (·.er)) = fun p => (L p).map (·.er) := funext e
  rw [this] at h
  obtain ⟨t, ch, inv⟩ := EInv.reachBy ok h
  exact ⟨fun x c hc => (inv.step_recv hq hc).1, fun x u hne hc hp => (inv.step_meet hne hp hq hc).1⟩

/-- The first bit in which two ranks differ, as a specification: all lower bits
are the same. -/
def FirstDiff (p q i : Nat) : Prop := p.testBit i ≠ q.testBit i ∧ ∀ j < i, p.testBit j = q.testBit j

theorem diffBit_first (p q n : Nat) : ∀ i k, diffBit p q n i = some k → (∀ j < i, p.testBit j = q.testBit j) → FirstDiff p q k := by
  induction n with
  | zero => intro i k h; simp [diffBit] at h
  | succ n ih =>
    intro i k h hlt
    rw [diffBit] at h
    split at h
    · rename_i hne
      injection h with h
      subst h
      exact ⟨fun e => hne e.symm, hlt⟩
    · rename_i he
      apply ih _ _ h
      intro j hj
      by_cases c : j = i
      · subst c; simpa using (not_not.1 he).symm
      · exact hlt j (by omega)

/-- C59, the order as documented: of two messages of a round, the one whose peer
differs from the own rank in a lower bit comes first; with the same bit, processes
with bit 0 send first and processes with bit 1 receive first; then the lower
peer comes first. -/
theorem C59_order (me : Nat) (l : List (Act α)) (s : List (Act α × Nat)) (h : DigitRun me l s) :
    s.Pairwise (fun a b => a.1.round = b.1.round → ∀ pa pb, actionPeer a.1.kind = some pa → actionPeer b.1.kind = some pb →
      ∃ i j, FirstDiff me pa i ∧ FirstDiff me pb j ∧ (i < j ∨ i = j ∧
        ((me.testBit i = false ∧ a.1.kind = .send pa ∧ b.1.kind = .recv pb) ∨
         (me.testBit i = true ∧ a.1.kind = .recv pa ∧ b.1.kind = .send pb) ∨
         (a.1.kind = .send pa ∧ b.1.kind = .send pb ∨ a.1.kind = .recv pa ∧ b.1.kind = .recv pb) ∧
          (pa < pb ∨ pa = pb ∧ a.2 ≤ b.2)))) := by
  refine h.pairwise.imp ?_
  intro a b hab hr pa pb hpa hpb
  rw [digitLe_iff] at hab
  rcases hab with hab | ⟨_, x, y, hx, hy, hab⟩
  · omega
  obtain ⟨i, h1, h2, h3⟩ := digitKey_some hx
  obtain ⟨j, h4, h5, h6⟩ := digitKey_some hy
  rw [hpa] at h1; injection h1 with h1
  rw [hpb] at h4; injection h4 with h4
  rw [← h1] at h2 hab; rw [← h4] at h5 hab
  refine ⟨i, j, diffBit_first _ _ _ _ _ h2 (by omega), diffBit_first _ _ _ _ _ h5 (by omega), ?_⟩
  have ra := subPhase_range me i a.1.kind
  have rb := subPhase_range me j b.1.kind
  by_cases c : i < j
  · exact Or.inl c
  have hij : i = j := by omega
  subst hij
  refine Or.inr ⟨rfl, ?_⟩
  have cs : ∀ k q, actionPeer k = some q → k = .send q ∨ k = .recv q := by
    intro k q hk
    cases k <;> simp_all [actionPeer]
  rcases cs _ _ hpa with ka | ka <;> rcases cs _ _ hpb with kb | kb <;>
    cases hb : me.testBit i <;> simp only [ka, kb, subPhase, hb, if_true, Bool.false_eq_true, if_false] at h3 h6
  all_goals first
    | exact Or.inl ⟨rfl, ka, kb⟩
    | exact Or.inr (Or.inl ⟨rfl, ka, kb⟩)
    | exact Or.inr (Or.inr ⟨Or.inl ⟨ka, kb⟩, by omega⟩)
    | exact Or.inr (Or.inr ⟨Or.inr ⟨ka, kb⟩, by omega⟩)
    | (exfalso; omega)

/-- Process 5 (binary 101) with messages from and to 0, 1, 4 and 7 and a copy in
another round. -/
def digitDemo : List (Act Nat) :=
  [⟨0, .other, 0⟩, ⟨3, .send 1, 1⟩, ⟨3, .send 4, 2⟩, ⟨3, .send 7, 3⟩, ⟨3, .recv 7, 4⟩, ⟨3, .recv 0, 5⟩, ⟨3, .recv 4, 6⟩,
   ⟨3, .recv 1, 7⟩]

def digitDemoOrder : List (Act Nat × Nat) :=
  [(⟨0, .other, 0⟩, 0), (⟨3, .recv 0, 5⟩, 5), (⟨3, .recv 4, 6⟩, 6), (⟨3, .send 4, 2⟩, 2), (⟨3, .send 7, 3⟩, 3),
   (⟨3, .recv 7, 4⟩, 4), (⟨3, .recv 1, 7⟩, 7), (⟨3, .send 1, 1⟩, 1)]

theorem localAlone_of {l : List (Act α)} (h : l.Pairwise (fun a b => a.round = b.round → a.kind.isLocal = false ∧ b.kind.isLocal = false)) :
    LocalAlone l := by
  intro i j hi hj hij hr
  rcases Nat.lt_or_gt_of_ne hij with c | c
  · exact (List.pairwise_iff_getElem.1 h i j hi hj c hr).1
  · exact (List.pairwise_iff_getElem.1 h j i hj hi c hr.symm).2

example : PeersOK 5 digitDemo ∧ LocalAlone digitDemo ∧ DigitRun 5 digitDemo digitDemoOrder := by
  refine ⟨⟨by decide, ?_⟩, localAlone_of (by decide), by decide, ?_⟩
  · intro a ha q hq
    simp only [digitDemo, List.mem_cons, List.not_mem_nil, or_false] at ha
    rcases ha with rfl | rfl | rfl | rfl | rfl | rfl | rfl | rfl <;> simp at hq <;> subst hq <;> decide
  · have e : ∀ a b : Act Nat × Nat, (∃ v, cmpDigits 5 a b = some v ∧ v ≤ 0) ↔ (cmpDigits 5 a b).any (· ≤ 0) = true := by
      intro a b
      cases cmpDigits 5 a b <;> simp
    simp only [e]
    decide

example : sortSeq digitDemo digitDemoOrder =
    some [⟨0, .other, 0⟩, ⟨1, .recv 0, 5⟩, ⟨1, .recv 4, 6⟩, ⟨1, .send 4, 2⟩, ⟨1, .send 7, 3⟩, ⟨1, .recv 7, 4⟩, ⟨1, .recv 1, 7⟩,
      ⟨1, .send 1, 1⟩] := by decide

/-- A copy and a send in the same round. -/
example : ¬ LocalAlone ([⟨0, .send 1, 0⟩, ⟨0, .other, 1⟩] : List (Act Nat)) ∧
    cmpDigits 0 ((⟨0, .send 1, 0⟩, 0) : Act Nat × Nat) (⟨0, .other, 1⟩, 1) = none := by
  refine ⟨fun h => ?_, by decide⟩
  exact absurd (h 1 0 (by decide) (by decide) (by decide) rfl) (by decide)

/-- The hypotheses of deadlock freedom can be met: the messages around a ring of
C20 match, and can be sorted by digits. -/
example : ∃ r, SortedDigits ringDemo r := by
  have h : ∀ p, ∃ r s, DigitRun p (ringDemo p) s ∧ sortSeq (ringDemo p) s = some r := by
    intro p
    have : PeersOK p (ringDemo p) ∧ LocalAlone (ringDemo p) ∨ 3 ≤ p := by
      by_cases c : 3 ≤ p
      · exact Or.inr c
      · left
        have hp : p = 0 ∨ p = 1 ∨ p = 2 := by omega
        refine ⟨⟨by omega, ?_⟩, ?_⟩
        · intro a ha q hq
          rcases hp with rfl | rfl | rfl <;>
          · simp [ringDemo] at ha
            rcases ha with rfl | rfl | rfl | rfl | rfl <;> simp at hq <;> subst hq <;> decide
        · rcases hp with rfl | rfl | rfl <;> exact localAlone_of (by decide)
    rcases this with ⟨h1, h2⟩ | h3
    · obtain ⟨s, hs⟩ := (C59_sort_unique p (ringDemo p) h1 h2).2.1
      obtain ⟨r, hr, _⟩ := C59_sort_partial p _ s hs
      exact ⟨r, s, hs, hr⟩
    · rw [ringDemo_out p h3]
      exact ⟨[], [], ⟨List.Perm.refl _, List.IsChain.nil⟩, rfl⟩
  choose r hr using h
  exact ⟨r, hr⟩

end Laik
