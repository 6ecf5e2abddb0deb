import Mathlib.Data.List.Nodup
import Mathlib.Data.List.Perm.Basic
/-!
# Model of sorting of action sequences (`src/action.c` 1575-1858)
-/

namespace Laik

/-- What sorting needs to know about an action: `laik_action_isSend`,
`laik_action_isRecv` (src/action.c 763-787) with `getActionPeer` (1599-1620).
Collective actions (group reductions) are neither; they are separated from
other local actions here to state properties of executions. -/
inductive AKind
  | other
  | coll (c : Nat)
  | send (peer : Nat)
  | recv (peer : Nat)
  deriving DecidableEq, Repr

/-- An action: round (`unsigned char`, see 130-162; values of at least 255 fail
an assert and are not modelled), kind, and everything else (`content`). -/
structure Act (α : Type) where
  round : Nat
  kind : AKind
  content : α
  deriving DecidableEq, Repr

variable {α : Type}

/-- Phase calculation in `cmp2phase`, src/action.c 1639-1645. -/
def phase (me : Nat) (k : AKind) : Int :=
  match k with
  | .recv p => if p < me then 1 else 4
  | .send p => if p < me then 3 else 2
  | _ => 0

/-- Peer used in `cmp2phase`, src/action.c 1636-1637. -/
def peer (k : AKind) : Int :=
  match k with
  | .recv p => p
  | .send p => p
  | _ => 0

/-- `cmp2phase`, src/action.c 1626-1667, for actions with their position in the
sequence: the difference of addresses has the sign of the difference of
positions. -/
def cmp2phase (me : Nat) (a b : Act α × Nat) : Int :=
  if a.1.round ≠ b.1.round then (a.1.round : Int) - b.1.round
  else if phase me a.1.kind ≠ phase me b.1.kind then phase me a.1.kind - phase me b.1.kind
  else if phase me a.1.kind > 0 ∧ peer a.1.kind ≠ peer b.1.kind then peer a.1.kind - peer b.1.kind
  else (a.2 : Int) - b.2

/-- `cmp_rounds`, src/action.c 1815-1826. -/
def cmpRounds (a b : Act α × Nat) : Int :=
  if a.1.round ≠ b.1.round then (a.1.round : Int) - b.1.round else (a.2 : Int) - b.2

/-- Result of `qsort` on the pointers to all actions (lines 1688-1695,
1836-1841): a permutation sorted according to the comparison function. -/
def IsPtrSort (cmp : Act α × Nat → Act α × Nat → Int) (l : List (Act α)) (s : List (Act α × Nat)) : Prop :=
  s.Perm l.zipIdx ∧ s.Pairwise (fun a b => cmp a b ≤ 0)

/-- Loop of `addResorted`, src/action.c 1589-1597, `none`: failed assert 1591. -/
def addResGo (oldRound newRound : Nat) : List (Act α) → Option (List (Act α))
  | [] => some []
  | a :: l =>
    if a.round < oldRound then none
    else
      let new := if a.round > oldRound then newRound + 1 else newRound
      (addResGo a.round new l).map ({ a with round := new } :: ·)

/-- `addResorted`, src/action.c 1579-1598, `none`: failed assert 1583. -/
def addResorted (l : List (Act α)) : Option (List (Act α)) :=
  match l with
  | [] => none
  | a :: l => addResGo a.round 0 (a :: l)

/-- `laik_aseq_sort_2phases` 1681-1712 and `laik_aseq_sort_rounds` 1829-1858 of
src/action.c for a result `s` of the `qsort`: the sequence is only replaced if
some position changed. -/
def sortSeq (l : List (Act α)) (s : List (Act α × Nat)) : Option (List (Act α)) :=
  if l = [] then some l
  else if s.map (·.2) = List.range l.length then some l
  else addResorted (s.map (·.1))

/-! ### Lemmas -/

theorem addResGo_spec (l : List (Act α)) : ∀ (o k : Nat), (∀ a ∈ l, o ≤ a.round) → l.Pairwise (fun a b => a.round ≤ b.round) →
    ∃ f : Nat → Nat, f o = k ∧ addResGo o k l = some (l.map (fun a => { a with round := f a.round })) ∧
      (∀ a ∈ l, ∀ b ∈ l, (a.round < b.round ↔ f a.round < f b.round)) ∧
      (∀ a ∈ l, (o < a.round ↔ k < f a.round) ∧ k ≤ f a.round) ∧
      (∀ j, k ≤ j → (∃ a ∈ l, j ≤ f a.round) → j = k ∨ ∃ a ∈ l, f a.round = j) := by
  induction l with
  | nil =>
    intro o k _ _
    exact ⟨fun _ => k, rfl, rfl, by simp, by simp, by simp⟩
  | cons a l ih =>
    intro o k ho hp
    rw [List.pairwise_cons] at hp
    have hoa := ho a List.mem_cons_self
    obtain ⟨f, h1, h2, h3, h4, h5⟩ := ih a.round (if a.round > o then k + 1 else k) hp.1 hp.2
    by_cases c : a.round > o
    · rw [if_pos c] at h1 h2 h4 h5
      refine ⟨fun r => if r = o then k else f r, by simp, ?_, ?_, ?_, ?_⟩
      · rw [addResGo, if_neg (by omega)]
        simp only [if_pos c, h2, Option.map_some, List.map_cons, Option.some.injEq, List.cons.injEq]
        constructor
        · rw [if_neg (by omega), h1]
        · apply List.map_congr_left
          intro b hb
          have := hp.1 b hb
          rw [if_neg (by omega)]
      · have key : ∀ b ∈ a :: l, b.round ≠ o := by
          intro b hb
          rcases List.mem_cons.1 hb with rfl | hb
          · omega
          · have := hp.1 b hb; omega
        intro b hb b' hb'
        simp only [if_neg (key b hb), if_neg (key b' hb')]
        rcases List.mem_cons.1 hb with rfl | hb2
        · rcases List.mem_cons.1 hb' with rfl | hb3
          · simp
          · have := h4 b' hb3; rw [h1]; omega
        · rcases List.mem_cons.1 hb' with rfl | hb3
          · have := h4 b hb2; have := hp.1 b hb2; rw [h1]; omega
          · exact h3 b hb2 b' hb3
      · intro b hb
        rcases List.mem_cons.1 hb with rfl | hb
        · simp only [if_neg (show b.round ≠ o by omega), h1]; omega
        · have := hp.1 b hb; have := h4 b hb
          simp only [if_neg (show b.round ≠ o by omega)]; omega
      · intro j hj hex
        by_cases e : j = k
        · exact Or.inl e
        · right
          by_cases e2 : j = k + 1
          · refine ⟨a, List.mem_cons_self, ?_⟩
            simp only [if_neg (show a.round ≠ o by omega), h1, e2]
          · obtain ⟨b, hb, hjb⟩ := hex
            rcases List.mem_cons.1 hb with rfl | hb
            · simp only [if_neg (show b.round ≠ o by omega), h1] at hjb; omega
            · have hbo := hp.1 b hb
              simp only [if_neg (show b.round ≠ o by omega)] at hjb
              rcases h5 j (by omega) ⟨b, hb, hjb⟩ with e3 | ⟨b', hb', e3⟩
              · omega
              · refine ⟨b', List.mem_cons_of_mem _ hb', ?_⟩
                have := hp.1 b' hb'
                simp only [if_neg (show b'.round ≠ o by omega), e3]
    · have e : a.round = o := by omega
      rw [if_neg c] at h1 h2 h4 h5
      refine ⟨f, by rw [← e]; exact h1, ?_, ?_, ?_, ?_⟩
      · rw [addResGo, if_neg (by omega)]
        simp only [if_neg c, h2, Option.map_some, List.map_cons, h1]
      · intro b hb b' hb'
        rcases List.mem_cons.1 hb with rfl | hb2
        · rcases List.mem_cons.1 hb' with rfl | hb3
          · simp
          · have := h4 b' hb3; rw [h1]; omega
        · rcases List.mem_cons.1 hb' with rfl | hb3
          · have := h4 b hb2; have := hp.1 b hb2; rw [h1]; omega
          · exact h3 b hb2 b' hb3
      · intro b hb
        rcases List.mem_cons.1 hb with rfl | hb
        · rw [h1]; omega
        · have := h4 b hb; omega
      · intro j hj hex
        by_cases e : j = k
        · exact Or.inl e
        · obtain ⟨b, hb, hjb⟩ := hex
          rcases List.mem_cons.1 hb with rfl | hb
          · omega
          · rcases h5 j hj ⟨b, hb, hjb⟩ with e3 | ⟨b', hb', e3⟩
            · exact Or.inl e3
            · exact Or.inr ⟨b', List.mem_cons_of_mem _ hb', e3⟩

/-- Renumbering of a list sorted by rounds: a strictly monotone map of rounds,
onto an initial segment of the naturals. -/
theorem addResorted_spec (l : List (Act α)) (hne : l ≠ []) (hp : l.Pairwise (fun a b => a.round ≤ b.round)) :
    ∃ f : Nat → Nat, addResorted l = some (l.map (fun a => { a with round := f a.round })) ∧
      (∀ a ∈ l, ∀ b ∈ l, (a.round < b.round ↔ f a.round < f b.round)) ∧
      (∀ j, (∃ a ∈ l, j ≤ f a.round) → ∃ a ∈ l, f a.round = j) := by
  cases l with
  | nil => exact absurd rfl hne
  | cons a l =>
    have hp' := hp
    rw [List.pairwise_cons] at hp'
    obtain ⟨f, h1, h2, h3, _, h5⟩ := addResGo_spec (a :: l) a.round 0
      (by intro b hb; rcases List.mem_cons.1 hb with rfl | hb; exacts [Nat.le_refl _, hp'.1 b hb]) hp
    refine ⟨f, h2, h3, ?_⟩
    intro j hj
    rcases h5 j (by omega) hj with e | e
    · exact ⟨a, List.mem_cons_self, by rw [h1, e]⟩
    · exact e

theorem cmpRounds_round {a b : Act α × Nat} (h : cmpRounds a b ≤ 0) : a.1.round ≤ b.1.round := by
  unfold cmpRounds at h
  split at h <;> omega

theorem cmp2phase_round {me : Nat} {a b : Act α × Nat} (h : cmp2phase me a b ≤ 0) : a.1.round ≤ b.1.round := by
  unfold cmp2phase at h
  split at h <;> omega

end Laik
