import Verif.Props.ActionSort
import Mathlib.Data.List.Chain
/-!
# Model of the sort by digits of ranks (`src/action.c` 1714-1810)
-/

namespace Laik

variable {α : Type}

/-- `getActionPeer`, src/action.c 1599-1620, `none`: failed assert 1616, for
actions that are neither send nor receive. -/
def actionPeer : AKind → Option Nat
  | .send p => some p
  | .recv p => some p
  | _ => none

/-- Loops of `cmp_rankdigits`, src/action.c 1735 and 1738, from bit `i` on: the
first bit in which the ranks differ.  Ranks are `int` and not negative.  `none`:
the shift of line 1735 reaches the sign bit of `mask`, undefined in C.  The phase
of the code is the result plus 1, `mask` is 1 shifted by the result. -/
def diffBit (me peer : Nat) : Nat → Nat → Option Nat
  | 0, _ => none
  | n + 1, i => if peer.testBit i ≠ me.testBit i then some i else diffBit me peer n (i + 1)

/-- Sub-phase, src/action.c 1747-1755, with `mask` having bit `j` set. -/
def subPhase (me j : Nat) : AKind → Nat
  | .send _ => if me.testBit j then 2 else 1
  | _ => if me.testBit j then 1 else 2

/-- `cmp_rankdigits`, src/action.c 1714-1766, for actions with their position in
the sequence as in `cmp2phase`.  The peer is asked for before it is checked that
there is one (lines 1727-1728).  `mask` is that of the second loop. -/
def cmpDigits (me : Nat) (a b : Act α × Nat) : Option Int :=
  if a.1.round ≠ b.1.round then some ((a.1.round : Int) - b.1.round)
  else match actionPeer a.1.kind, actionPeer b.1.kind with
    | some pa, some pb =>
      match diffBit me pa 31 0, diffBit me pb 31 0 with
      | some i, some j =>
        if i ≠ j then some ((i : Int) - j)
        else if subPhase me j a.1.kind ≠ subPhase me j b.1.kind then
          some ((subPhase me j a.1.kind : Int) - subPhase me j b.1.kind)
        else if pa ≠ pb then some ((pa : Int) - pb)
        else some ((a.2 : Int) - b.2)
      | _, _ => none
    | _, _ => none

/-- A run of `qsort` in `laik_aseq_sort_rankdigits` (src/action.c 1778-1792) that
comes to an end with the order `s`.  Every sort by comparisons compares the
elements which are next to each other in the result, so these comparisons have
not failed. -/
def DigitRun (me : Nat) (l : List (Act α)) (s : List (Act α × Nat)) : Prop :=
  s.Perm l.zipIdx ∧ s.IsChain (fun a b => ∃ v, cmpDigits me a b = some v ∧ v ≤ 0)

/-! ### Lemmas -/

theorem diffBit_comm (p q n : Nat) : ∀ i, diffBit p q n i = diffBit q p n i := by
  induction n with
  | zero => intro i; rfl
  | succ n ih =>
    intro i
    simp only [diffBit, ih]
    by_cases h : q.testBit i = p.testBit i
    · rw [if_neg (by simp [h]), if_neg (by simp [h])]
    · rw [if_pos h, if_pos (fun e => h e.symm)]

theorem diffBit_ne (p q n : Nat) : ∀ i j, diffBit p q n i = some j → q.testBit j ≠ p.testBit j := by
  induction n with
  | zero => intro i j h; simp [diffBit] at h
  | succ n ih =>
    intro i j h
    rw [diffBit] at h
    split at h
    · injection h with h; subst h; assumption
    · exact ih _ _ h

theorem diffBit_none (p q n : Nat) : ∀ i, diffBit p q n i = none → ∀ j, i ≤ j → j < i + n → q.testBit j = p.testBit j := by
  induction n with
  | zero => intro i _ j _ _; omega
  | succ n ih =>
    intro i h j h1 h2
    rw [diffBit] at h
    split at h
    · simp at h
    · rename_i hc
      by_cases e : j = i
      · subst e; simpa using hc
      · exact ih _ h j (by omega) (by omega)

theorem diffBit_some {p q : Nat} (hp : p < 2 ^ 31) (hq : q < 2 ^ 31) (hne : p ≠ q) : ∃ i, diffBit p q 31 0 = some i := by
  cases h : diffBit p q 31 0 with
  | some i => exact ⟨i, rfl⟩
  | none =>
    exfalso
    apply hne
    apply Nat.eq_of_testBit_eq
    intro j
    by_cases c : j < 31
    · exact (diffBit_none p q 31 0 h j (by omega) (by omega)).symm
    · have h1 : 2 ^ 31 ≤ 2 ^ j := Nat.pow_le_pow_right (by omega) (by omega)
      rw [Nat.testBit_lt_two_pow (by omega), Nat.testBit_lt_two_pow (by omega)]

/-- Phase of a message from `p` to `q`. -/
def digitPhase (p q : Nat) : Nat :=
  match diffBit p q 31 0 with
  | some i => 2 * i + (if p.testBit i then 2 else 1)
  | none => 1

theorem digitPhase_pos (p q : Nat) : 0 < digitPhase p q := by
  unfold digitPhase
  split
  · split <;> omega
  · omega

/-- Phase and peer of an action of process `me` which can be compared. -/
def digitKey (me : Nat) : AKind → Option (Nat × Nat)
  | .send q => (diffBit me q 31 0).map fun _ => (digitPhase me q, q)
  | .recv q => (diffBit me q 31 0).map fun _ => (digitPhase q me, q)
  | _ => none

theorem subPhase_eq {me q i : Nat} (h : diffBit me q 31 0 = some i) :
    2 * i + subPhase me i (.send q) = digitPhase me q ∧ 2 * i + subPhase me i (.recv q) = digitPhase q me := by
  have h' := h
  rw [diffBit_comm] at h'
  have hne := diffBit_ne _ _ _ _ _ h
  simp only [digitPhase, h, h', subPhase, true_and]
  cases hm : me.testBit i <;> cases hq : q.testBit i <;> simp_all

theorem subPhase_range (me i : Nat) (k : AKind) : 1 ≤ subPhase me i k ∧ subPhase me i k ≤ 2 := by
  unfold subPhase
  cases k <;> simp only <;> split <;> omega

theorem digitKey_some {me : Nat} {k : AKind} {x : Nat × Nat} (h : digitKey me k = some x) :
    ∃ i, actionPeer k = some x.2 ∧ diffBit me x.2 31 0 = some i ∧ x.1 = 2 * i + subPhase me i k := by
  cases k with
  | other => simp [digitKey] at h
  | coll c => simp [digitKey] at h
  | send q =>
    simp only [digitKey, Option.map_eq_some_iff] at h
    obtain ⟨i, h1, h2⟩ := h
    exact ⟨i, by rw [← h2]; rfl, by rw [← h2]; exact h1, by rw [← h2]; exact (subPhase_eq h1).1.symm⟩
  | recv q =>
    simp only [digitKey, Option.map_eq_some_iff] at h
    obtain ⟨i, h1, h2⟩ := h
    exact ⟨i, by rw [← h2]; rfl, by rw [← h2]; exact h1, by rw [← h2]; exact (subPhase_eq h1).2.symm⟩

theorem digitKey_none {me : Nat} {k : AKind} (h : digitKey me k = none) :
    actionPeer k = none ∨ ∃ q, actionPeer k = some q ∧ diffBit me q 31 0 = none := by
  cases k with
  | other => exact Or.inl rfl
  | coll c => exact Or.inl rfl
  | send q => exact Or.inr ⟨q, rfl, by simpa [digitKey] using h⟩
  | recv q => exact Or.inr ⟨q, rfl, by simpa [digitKey] using h⟩

/-- Comparison with success and result not positive. -/
def DigitLe (me : Nat) (a b : Act α × Nat) : Prop := ∃ v, cmpDigits me a b = some v ∧ v ≤ 0

theorem cmpDigits_none {me : Nat} {a b : Act α × Nat} (hr : a.1.round = b.1.round)
    (h : digitKey me a.1.kind = none ∨ digitKey me b.1.kind = none) : cmpDigits me a b = none := by
  unfold cmpDigits
  rw [if_neg (by simpa using hr)]
  rcases h with h | h
  · rcases digitKey_none h with h | ⟨q, h1, h2⟩
    · rw [h]
    · rw [h1]
      cases actionPeer b.1.kind with
      | none => rfl
      | some p => simp only [h2]
  · rcases digitKey_none h with h | ⟨q, h1, h2⟩
    · rw [h]
      cases actionPeer a.1.kind <;> rfl
    · rw [h1]
      cases actionPeer a.1.kind with
      | none => rfl
      | some p =>
        simp only [h2]
        cases diffBit me p 31 0 <;> rfl

theorem digitLe_iff {me : Nat} {a b : Act α × Nat} : DigitLe me a b ↔
    a.1.round < b.1.round ∨ a.1.round = b.1.round ∧ ∃ x y, digitKey me a.1.kind = some x ∧ digitKey me b.1.kind = some y ∧
      (x.1 < y.1 ∨ x.1 = y.1 ∧ (x.2 < y.2 ∨ x.2 = y.2 ∧ a.2 ≤ b.2)) := by
  unfold DigitLe
  by_cases hr : a.1.round = b.1.round
  · cases hx : digitKey me a.1.kind with
    | none => rw [cmpDigits_none hr (Or.inl hx)]; simp [hr]
    | some x =>
      cases hy : digitKey me b.1.kind with
      | none => rw [cmpDigits_none hr (Or.inr hy)]; simp [hr]
      | some y =>
        obtain ⟨i, h1, h2, h3⟩ := digitKey_some hx
        obtain ⟨j, h4, h5, h6⟩ := digitKey_some hy
        have ra := subPhase_range me i a.1.kind
        have rb := subPhase_range me j b.1.kind
        have e : cmpDigits me a b =
            if i ≠ j then some ((i : Int) - j)
            else if subPhase me j a.1.kind ≠ subPhase me j b.1.kind then
              some ((subPhase me j a.1.kind : Int) - subPhase me j b.1.kind)
            else if x.2 ≠ y.2 then some ((x.2 : Int) - y.2)
            else some ((a.2 : Int) - b.2) := by
          unfold cmpDigits
          rw [if_neg (by simpa using hr), h1, h4]
          simp only [h2, h5]
        rw [e]
        have hcl : ∀ (o : Option Int) (w : Int), o = some w → ((∃ v, o = some v ∧ v ≤ 0) ↔ w ≤ 0) := by
          rintro o w rfl
          exact ⟨fun ⟨v, h, hv⟩ => by injection h with h; omega, fun h => ⟨w, rfl, h⟩⟩
        have hrhs : (a.1.round < b.1.round ∨ a.1.round = b.1.round ∧ ∃ x' y', some x = some x' ∧ some y = some y' ∧
            (x'.1 < y'.1 ∨ x'.1 = y'.1 ∧ (x'.2 < y'.2 ∨ x'.2 = y'.2 ∧ a.2 ≤ b.2))) ↔
            (x.1 < y.1 ∨ x.1 = y.1 ∧ (x.2 < y.2 ∨ x.2 = y.2 ∧ a.2 ≤ b.2)) := by
          constructor
          · rintro (h | ⟨_, x', y', e1, e2, h⟩)
            · omega
            · injection e1 with e1; injection e2 with e2; subst e1; subst e2; exact h
          · intro h; exact Or.inr ⟨hr, x, y, rfl, rfl, h⟩
        rw [hrhs]
        by_cases c1 : i = j
        · subst c1
          rw [if_neg (by simp)]
          by_cases c2 : subPhase me i a.1.kind = subPhase me i b.1.kind
          · rw [if_neg (by simpa using c2)]
            by_cases c3 : x.2 = y.2
            · rw [if_neg (by simpa using c3), hcl _ _ rfl]; omega
            · rw [if_pos c3, hcl _ _ rfl]; omega
          · rw [if_pos c2, hcl _ _ rfl]; omega
        · rw [if_pos c1, hcl _ _ rfl]; omega
  · have e : cmpDigits me a b = some ((a.1.round : Int) - b.1.round) := by
      unfold cmpDigits; rw [if_pos hr]
    rw [e]
    constructor
    · rintro ⟨v, hv, h⟩
      injection hv with hv
      left; omega
    · rintro (h | h)
      · exact ⟨_, rfl, by omega⟩
      · exact absurd h.1 hr

theorem DigitLe.trans {me : Nat} {a b c : Act α × Nat} (h1 : DigitLe me a b) (h2 : DigitLe me b c) : DigitLe me a c := by
  rw [digitLe_iff] at *
  rcases h1 with h1 | ⟨e1, x, y, hx, hy, h1⟩
  · rcases h2 with h2 | h2
    · left; omega
    · left; omega
  · rcases h2 with h2 | ⟨e2, y', z, hy', hz, h2⟩
    · left; omega
    · rw [hy] at hy'
      injection hy' with e
      subst e
      exact Or.inr ⟨by omega, x, z, hx, hz, by omega⟩

/-- Comparison function with integers only, used to apply lemmas on sorting. -/
def cmpDigitsI (me : Nat) (a b : Act α × Nat) : Int := (cmpDigits me a b).getD 1

theorem cmpDigitsI_iff {me : Nat} {a b : Act α × Nat} : cmpDigitsI me a b ≤ 0 ↔ DigitLe me a b := by
  unfold cmpDigitsI DigitLe
  cases cmpDigits me a b with
  | none => simp
  | some v => simp

theorem DigitRun.pairwise {me : Nat} {l : List (Act α)} {s : List (Act α × Nat)} (h : DigitRun me l s) :
    s.Pairwise (DigitLe me) := by
  have : Trans (DigitLe (α := α) me) (DigitLe me) (DigitLe me) := ⟨DigitLe.trans⟩
  exact List.isChain_iff_pairwise.1 h.2

theorem DigitRun.sort {me : Nat} {l : List (Act α)} {s : List (Act α × Nat)} (h : DigitRun me l s) :
    IsPtrSort (cmpDigitsI me) l s :=
  ⟨h.1, h.pairwise.imp cmpDigitsI_iff.2⟩

theorem cmpDigitsI_round {me : Nat} {a b : Act α × Nat} (h : cmpDigitsI me a b ≤ 0) : a.1.round ≤ b.1.round := by
  rw [cmpDigitsI_iff, digitLe_iff] at h
  omega

theorem cmpDigitsI_pos {me : Nat} {a b : Act α × Nat} (h : cmpDigitsI me a b ≤ 0) (hr : a.1.round = b.1.round)
    (hk : samePhase a.1.kind b.1.kind) : a.2 ≤ b.2 := by
  rw [cmpDigitsI_iff, digitLe_iff] at h
  rcases h with h | ⟨_, x, y, hx, hy, h⟩
  · omega
  · rcases hk with hk | ⟨h1, _⟩
    · rw [hk, hy] at hx
      injection hx with hx
      subst hx
      omega
    · cases ek : a.1.kind <;> rw [ek] at h1 hx <;> simp [AKind.isLocal, digitKey] at h1 hx

theorem digit_order {l : Nat → List (Act α)} {g : Nat → Nat → Nat} (hm : Matched l g) (p : Nat) (a b : Act α × Nat)
    (hc : cmpDigitsI p a b ≤ 0) (ka kb : GKey)
    (hka : gkeyBy digitPhase (g p) p a.1 = some ka) (hkb : gkeyBy digitPhase (g p) p b.1 = some kb) : ¬ klt kb ka := by
  rw [cmpDigitsI_iff, digitLe_iff] at hc
  rw [klt_iff]
  rcases hc with hlt | ⟨heq, x, y, hx, hy, hc⟩
  · have hg := hm.mono p _ _ hlt
    have e1 : ka.1 = g p a.1.round := by
      unfold gkeyBy at hka
      split at hka <;> first | (injection hka with hka; rw [← hka]) | cases hka
    have e2 : kb.1 = g p b.1.round := by
      unfold gkeyBy at hkb
      split at hkb <;> first | (injection hkb with hkb; rw [← hkb]) | cases hkb
    omega
  · have heq' : g p a.1.round = g p b.1.round := by rw [heq]
    have key : ∀ k z, digitKey p k = some z → (k = .send z.2 ∧ z.1 = digitPhase p z.2 ∨ k = .recv z.2 ∧ z.1 = digitPhase z.2 p) ∧
        digitPhase p z.2 ≠ digitPhase z.2 p := by
      intro k z hz
      have two : ∀ q, diffBit p q 31 0 ≠ none → digitPhase p q ≠ digitPhase q p := by
        intro q hq
        cases h : diffBit p q 31 0 with
        | none => exact absurd h hq
        | some i =>
          have := subPhase_eq h
          simp only [subPhase] at this
          have h3 := this.1
          have h4 := this.2
          cases hb : p.testBit i <;> simp only [hb, if_true, Bool.false_eq_true, if_false] at h3 h4 <;> omega
      cases k with
      | other => simp [digitKey] at hz
      | coll c => simp [digitKey] at hz
      | send q =>
        simp only [digitKey, Option.map_eq_some_iff] at hz
        obtain ⟨i, h1, rfl⟩ := hz
        exact ⟨Or.inl ⟨rfl, rfl⟩, two q (by rw [h1]; simp)⟩
      | recv q =>
        simp only [digitKey, Option.map_eq_some_iff] at hz
        obtain ⟨i, h1, rfl⟩ := hz
        exact ⟨Or.inr ⟨rfl, rfl⟩, two q (by rw [h1]; simp)⟩
    -- in the same phase all are sends or all are receives
    have dir : ∀ q q', diffBit p q 31 0 ≠ none → diffBit p q' 31 0 ≠ none → digitPhase p q ≠ digitPhase q' p := by
      intro q q' h1 h2
      cases h : diffBit p q 31 0 with
      | none => exact absurd h h1
      | some i =>
        cases h' : diffBit p q' 31 0 with
        | none => exact absurd h' h2
        | some j =>
          have e1 := (subPhase_eq h).1
          have e2 := (subPhase_eq h').2
          intro e
          have r1 := subPhase_range p i (.send q)
          have r2 := subPhase_range p j (.recv q')
          have hij : i = j := by omega
          subst hij
          simp only [subPhase] at e1 e2
          cases hb : p.testBit i <;> simp only [hb, if_true, Bool.false_eq_true, if_false] at e1 e2 <;> omega
    have hdx : diffBit p x.2 31 0 ≠ none := by obtain ⟨i, _, h, _⟩ := digitKey_some hx; rw [h]; simp
    have hdy : diffBit p y.2 31 0 ≠ none := by obtain ⟨i, _, h, _⟩ := digitKey_some hy; rw [h]; simp
    have dxy := dir x.2 y.2 hdx hdy
    have dyx := dir y.2 x.2 hdy hdx
    unfold gkeyBy at hka hkb
    rcases (key _ _ hx).1 with ⟨k1, p1⟩ | ⟨k1, p1⟩ <;> rcases (key _ _ hy).1 with ⟨k2, p2⟩ | ⟨k2, p2⟩ <;>
      rw [k1] at hka <;> rw [k2] at hkb <;> cases hka <;> cases hkb <;> simp only <;> omega

end Laik
