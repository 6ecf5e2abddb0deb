import Verif.Spec.Exec
import Mathlib.Order.WellFounded
import Mathlib.Tactic.ByContra
/-!
# Lemmas for deadlock freedom of sorted action sequences
-/

namespace Laik

variable {α : Type}

def sendKey (g : Nat → Nat) (q : Nat) (a : Act α) : Option (Nat × α) :=
  if a.kind = .send q then some (g a.round, a.content) else none

def recvKey (g : Nat → Nat) (p : Nat) (a : Act α) : Option (Nat × α) :=
  if a.kind = .recv p then some (g a.round, a.content) else none

/-- Key of the global order: round, phase, sender, receiver. -/
abbrev GKey := Nat × Nat × Nat × Nat

def klt (a b : GKey) : Prop :=
  Prod.Lex (· < ·) (Prod.Lex (· < ·) (Prod.Lex (· < ·) (· < ·))) a b

theorem klt_iff (a b : GKey) : klt a b ↔
    a.1 < b.1 ∨ a.1 = b.1 ∧ (a.2.1 < b.2.1 ∨ a.2.1 = b.2.1 ∧
      (a.2.2.1 < b.2.2.1 ∨ a.2.2.1 = b.2.2.1 ∧ a.2.2.2 < b.2.2.2)) := by
  unfold klt
  simp only [Prod.lex_def]

theorem klt_wf : WellFounded klt :=
  (Prod.lex Nat.lt_wfRel (Prod.lex Nat.lt_wfRel (Prod.lex Nat.lt_wfRel Nat.lt_wfRel))).wf

theorem klt_tri {a b : GKey} (h1 : ¬ klt a b) (h2 : ¬ klt b a) : a = b := by
  rw [klt_iff] at h1 h2
  obtain ⟨a1, a2, a3, a4⟩ := a
  obtain ⟨b1, b2, b3, b4⟩ := b
  simp only [Prod.mk.injEq] at *
  omega

/-- Global key of an action of process `p`; none for local actions. -/
def gkey (g : Nat → Nat) (p : Nat) (a : Act α) : Option GKey :=
  match a.kind with
  | .other => none
  | .coll c => some (g a.round, 0, c, 0)
  | .send q => some (g a.round, if p < q then 1 else 2, p, q)
  | .recv q => some (g a.round, if q < p then 1 else 2, q, p)

/-- The same for messages from `p` to `q` in phase `ph p q`. -/
def gkeyBy (ph : Nat → Nat → Nat) (g : Nat → Nat) (p : Nat) (a : Act α) : Option GKey :=
  match a.kind with
  | .other => none
  | .coll c => some (g a.round, 0, c, 0)
  | .send q => some (g a.round, ph p q, p, q)
  | .recv q => some (g a.round, ph q p, q, p)

/-- Phases of the 2-phase sort. -/
def phase2 (p q : Nat) : Nat := if p < q then 1 else 2

theorem gkey_eq (g : Nat → Nat) (p : Nat) (a : Act α) : gkey g p a = gkeyBy phase2 g p a := rfl

/-- What is needed from the lists of actions in execution order. -/
structure ExecOK (L : Nat → List (Act α)) (g : Nat → Nat → Nat) : Prop where
  order : ∀ p, (L p).Pairwise (fun a b => ∀ ka kb, gkey (g p) p a = some ka → gkey (g p) p b = some kb → ¬ klt kb ka)
  nself : ∀ p, ∀ a ∈ L p, a.kind ≠ .send p ∧ a.kind ≠ .recv p
  pairs : ∀ p q, (L p).filterMap (sendKey (g p) q) = (L q).filterMap (recvKey (g q) p)
  colls : ∀ p q, ∀ a ∈ L p, ∀ b ∈ L q, ∀ c, a.kind = .coll c → b.kind = .coll c → g p a.round = g q b.round

/-- The same for messages from `p` to `q` in phase `ph p q`. -/
structure ExecOKBy (ph : Nat → Nat → Nat) (L : Nat → List (Act α)) (g : Nat → Nat → Nat) : Prop where
  order : ∀ p, (L p).Pairwise (fun a b => ∀ ka kb, gkeyBy ph (g p) p a = some ka → gkeyBy ph (g p) p b = some kb → ¬ klt kb ka)
  nself : ∀ p, ∀ a ∈ L p, a.kind ≠ .send p ∧ a.kind ≠ .recv p
  pairs : ∀ p q, (L p).filterMap (sendKey (g p) q) = (L q).filterMap (recvKey (g q) p)
  colls : ∀ p q, ∀ a ∈ L p, ∀ b ∈ L q, ∀ c, a.kind = .coll c → b.kind = .coll c → g p a.round = g q b.round

theorem ExecOK.by2 {L : Nat → List (Act α)} {g} (ok : ExecOK L g) : ExecOKBy phase2 L g :=
  ⟨ok.order, ok.nself, ok.pairs, ok.colls⟩

theorem ExecOKBy.of2 {L : Nat → List (Act α)} {g} (ok : ExecOKBy phase2 L g) : ExecOK L g :=
  ⟨ok.order, ok.nself, ok.pairs, ok.colls⟩

structure EInv (L : Nat → List (Act α)) (g : Nat → Nat → Nat) (st : EState α)
    (t : Nat → List (Act α)) (ch : Nat → Nat → List (Nat × α)) : Prop where
  suf : ∀ p, t p <:+ L p
  rem : ∀ p, st.rem p = (t p).map Act.er
  chan : ∀ p q, st.chan p q = (ch p q).map (·.2)
  pair : ∀ p q, ch p q ++ (t p).filterMap (sendKey (g p) q) = (t q).filterMap (recvKey (g q) p)

theorem EInv.startBy {ph} {L : Nat → List (Act α)} {g} (ok : ExecOKBy ph L g) :
    EInv L g (EState.start (fun p => (L p).map Act.er)) L (fun _ _ => []) where
  suf _ := List.suffix_refl _
  rem _ := rfl
  chan _ _ := rfl
  pair p q := by simpa using ok.pairs p q

/-- Replace in a function. -/
def fset {β : Type} (f : Nat → β) (p : Nat) (v : β) : Nat → β := fun q => if q = p then v else f q

@[simp] theorem fset_same {β : Type} (f : Nat → β) (p : Nat) (v : β) : fset f p v p = v := by simp [fset]
theorem fset_ne {β : Type} (f : Nat → β) {p q : Nat} (v : β) (h : q ≠ p) : fset f p v q = f q := by simp [fset, h]

theorem EInv.head {L : Nat → List (Act α)} {g st t ch} (inv : EInv L g st t ch) {p : Nat} {k : AKind} {x : α} {l : Prog α}
    (h : st.rem p = (k, x) :: l) : ∃ a t', t p = a :: t' ∧ a.kind = k ∧ a.content = x ∧ l = t'.map Act.er := by
  have hr := inv.rem p
  rw [h] at hr
  cases e : t p with
  | nil => rw [e] at hr; simp at hr
  | cons a t' =>
    rw [e] at hr
    simp only [List.map_cons, List.cons.injEq, Act.er, Prod.mk.injEq] at hr
    exact ⟨a, t', rfl, hr.1.1.symm, hr.1.2.symm, hr.2⟩

theorem suf_tail {β : Type} {a : β} {t l : List β} (h : a :: t <:+ l) : t <:+ l :=
  (List.suffix_cons a t).trans h

/-- If the process pops an action which is no send and no receive, the per-pair
lists do not change. -/
theorem pop_keys {g : Nat → Nat} {a : Act α} {t : List (Act α)} (q : Nat) :
    (a.kind ≠ .send q → (a :: t).filterMap (sendKey g q) = t.filterMap (sendKey g q)) ∧
    (a.kind ≠ .recv q → (a :: t).filterMap (recvKey g q) = t.filterMap (recvKey g q)) := by
  constructor
  · intro h
    rw [List.filterMap_cons_none]
    simp [sendKey, h]
  · intro h
    rw [List.filterMap_cons_none]
    simp [recvKey, h]

theorem pop_send {g : Nat → Nat} {a : Act α} {t : List (Act α)} {q : Nat} (h : a.kind = .send q) :
    (a :: t).filterMap (sendKey g q) = (g a.round, a.content) :: t.filterMap (sendKey g q) := by
  apply List.filterMap_cons_some
  simp [sendKey, h]

theorem pop_recv {g : Nat → Nat} {a : Act α} {t : List (Act α)} {q : Nat} (h : a.kind = .recv q) :
    (a :: t).filterMap (recvKey g q) = (g a.round, a.content) :: t.filterMap (recvKey g q) := by
  apply List.filterMap_cons_some
  simp [recvKey, h]

theorem EInv.step_loc {L : Nat → List (Act α)} {g st t ch} (inv : EInv L g st t ch) {p : Nat} {x : α} {l : Prog α}
    (h : st.rem p = (.other, x) :: l) :
    ∃ t' ch', EInv L g { st with rem := setRem st.rem p l } t' ch' := by
  obtain ⟨a, u, e, hk, _, hl⟩ := inv.head h
  have h1 : ∀ b q, (fset t p u b).filterMap (sendKey (g b) q) = (t b).filterMap (sendKey (g b) q) := by
    intro b q
    by_cases c : b = p
    · subst c; rw [fset_same, e, (pop_keys q).1 (by rw [hk]; simp)]
    · rw [fset_ne _ _ c]
  have h2 : ∀ b q, (fset t p u b).filterMap (recvKey (g b) q) = (t b).filterMap (recvKey (g b) q) := by
    intro b q
    by_cases c : b = p
    · subst c; rw [fset_same, e, (pop_keys q).2 (by rw [hk]; simp)]
    · rw [fset_ne _ _ c]
  refine ⟨fset t p u, ch, ?_, ?_, inv.chan, ?_⟩
  · intro q
    by_cases c : q = p
    · subst c; rw [fset_same]; exact suf_tail (e ▸ inv.suf q)
    · rw [fset_ne _ _ c]; exact inv.suf q
  · intro q
    by_cases c : q = p
    · subst c; simp [setRem, hl]
    · simp [setRem, c, fset_ne, inv.rem q]
  · intro a b
    rw [h1, h2]; exact inv.pair a b

theorem suf_fset {L t : Nat → List (Act α)} {p : Nat} {a : Act α} {u : List (Act α)} (hs : ∀ q, t q <:+ L q)
    (e : t p = a :: u) : ∀ q, fset t p u q <:+ L q := by
  intro q
  by_cases c : q = p
  · subst c; rw [fset_same]; exact suf_tail (e ▸ hs q)
  · rw [fset_ne _ _ c]; exact hs q

theorem rem_fset {rem : Nat → Prog α} {t : Nat → List (Act α)} {p : Nat} {u : List (Act α)} (hr : ∀ q, rem q = (t q).map Act.er)
    {l : Prog α} (hl : l = u.map Act.er) : ∀ q, setRem rem p l q = (fset t p u q).map Act.er := by
  intro q
  by_cases c : q = p
  · subst c; simp [setRem, hl]
  · simp [setRem, c, fset_ne, hr q]

theorem fset_send {g : Nat → Nat → Nat} {t : Nat → List (Act α)} {p : Nat} {a : Act α} {u : List (Act α)} (e : t p = a :: u)
    {b q : Nat} (h : b = p → a.kind ≠ .send q) :
    (fset t p u b).filterMap (sendKey (g b) q) = (t b).filterMap (sendKey (g b) q) := by
  by_cases c : b = p
  · subst c; rw [fset_same, e, (pop_keys q).1 (h rfl)]
  · rw [fset_ne _ _ c]

theorem fset_recv {g : Nat → Nat → Nat} {t : Nat → List (Act α)} {p : Nat} {a : Act α} {u : List (Act α)} (e : t p = a :: u)
    {b q : Nat} (h : b = p → a.kind ≠ .recv q) :
    (fset t p u b).filterMap (recvKey (g b) q) = (t b).filterMap (recvKey (g b) q) := by
  by_cases c : b = p
  · subst c; rw [fset_same, e, (pop_keys q).2 (h rfl)]
  · rw [fset_ne _ _ c]

theorem EInv.step_recv {L : Nat → List (Act α)} {g st t ch} (inv : EInv L g st t ch) {p q : Nat} {x y : α} {l : Prog α} {c : List α}
    (hq : st.rem q = (.recv p, y) :: l) (hc : st.chan p q = x :: c) :
    x = y ∧ ∃ t' ch', EInv L g { rem := setRem st.rem q l, chan := setChan st.chan p q c } t' ch' := by
  obtain ⟨a, u, e, hk, hx, hl⟩ := inv.head hq
  have hch := inv.chan p q
  rw [hc] at hch
  obtain ⟨k, c', ech⟩ : ∃ k c', ch p q = k :: c' := by
    cases e : ch p q with
    | nil => rw [e] at hch; simp at hch
    | cons k c' => exact ⟨k, c', rfl⟩
  rw [ech] at hch
  simp only [List.map_cons, List.cons.injEq] at hch
  have hp := inv.pair p q
  rw [ech, e, pop_recv hk] at hp
  simp only [List.cons_append, List.cons.injEq] at hp
  refine ⟨by rw [hch.1, hp.1, hx], fset t q u, fun a b => if a = p ∧ b = q then c' else ch a b,
    suf_fset inv.suf e, rem_fset inv.rem hl, ?_, ?_⟩
  · intro a b
    by_cases cc : a = p ∧ b = q
    · simp [setChan, cc, hch.2]
    · simp only [setChan, if_neg cc]; exact inv.chan a b
  · intro a' b
    rw [fset_send e (by rw [hk]; simp)]
    by_cases cc : a' = p ∧ b = q
    · obtain ⟨rfl, rfl⟩ := cc
      rw [if_pos ⟨rfl, rfl⟩, fset_same]
      exact hp.2
    · rw [if_neg cc, fset_recv e, inv.pair a' b]
      intro hb
      rw [hk]
      intro h
      injection h with h
      exact cc ⟨h.symm, hb⟩

theorem EInv.step_buf {L : Nat → List (Act α)} {g st t ch} (inv : EInv L g st t ch) {p q : Nat} {x : α} {l : Prog α}
    (hp : st.rem p = (.send q, x) :: l) :
    ∃ t' ch', EInv L g { rem := setRem st.rem p l, chan := setChan st.chan p q (st.chan p q ++ [x]) } t' ch' := by
  obtain ⟨a, u, e, hk, hx, hl⟩ := inv.head hp
  refine ⟨fset t p u, fun a' b => if a' = p ∧ b = q then ch p q ++ [(g p a.round, a.content)] else ch a' b,
    suf_fset inv.suf e, rem_fset inv.rem hl, ?_, ?_⟩
  · intro a' b
    by_cases cc : a' = p ∧ b = q
    · simp [setChan, cc, inv.chan p q, hx]
    · simp only [setChan, if_neg cc]; exact inv.chan a' b
  · intro a' b
    rw [fset_recv e (by rw [hk]; simp)]
    by_cases cc : a' = p ∧ b = q
    · obtain ⟨rfl, rfl⟩ := cc
      rw [if_pos ⟨rfl, rfl⟩, fset_same, ← inv.pair a' b, e, pop_send hk]
      simp
    · rw [if_neg cc, fset_send e, inv.pair a' b]
      intro hb
      rw [hk]
      intro h
      injection h with h
      exact cc ⟨hb, h.symm⟩

theorem EInv.step_meet {L : Nat → List (Act α)} {g st t ch} (inv : EInv L g st t ch) {p q : Nat} {x y : α} {l l' : Prog α}
    (hne : p ≠ q) (hp : st.rem p = (.send q, x) :: l) (hq : st.rem q = (.recv p, y) :: l') (hc : st.chan p q = []) :
    x = y ∧ ∃ t' ch', EInv L g { st with rem := setRem (setRem st.rem p l) q l' } t' ch' := by
  obtain ⟨t1, ch1, i1⟩ := inv.step_buf hp
  have hq1 : (setRem st.rem p l) q = (.recv p, y) :: l' := by simp [setRem, Ne.symm hne, hq]
  obtain ⟨exy, t2, ch2, i2⟩ := i1.step_recv (p := p) (q := q) (x := x) (c := []) hq1 (by simp [setChan, hc])
  refine ⟨exy, t2, ch2, ?_⟩
  have e : setChan (setChan st.chan p q (st.chan p q ++ [x])) p q [] = st.chan := by
    funext a b
    by_cases cc : a = p ∧ b = q
    · obtain ⟨rfl, rfl⟩ := cc; simp [setChan, hc]
    · simp [setChan, if_neg cc]
  have i3 := i2
  simp only [e] at i3
  exact i3

theorem EInv.step_coll {L : Nat → List (Act α)} {g st t ch} (inv : EInv L g st t ch) (c : Nat) :
    ∃ t' ch', EInv L g { st with rem := popColl st.rem c } t' ch' := by
  have key : ∀ p, (st.rem p).head?.map (·.1) = some (.coll c) ↔ (t p).head?.map (·.kind) = some (.coll c) := by
    intro p
    rw [inv.rem p]
    cases t p <;> simp [Act.er]
  have h1 : ∀ b q, (if (t b).head?.map (·.kind) = some (.coll c) then (t b).tail else t b).filterMap (sendKey (g b) q)
      = (t b).filterMap (sendKey (g b) q) := by
    intro b q
    split
    · rename_i h
      cases e : t b with
      | nil => rfl
      | cons a u =>
        rw [e] at h
        simp only [List.head?_cons, Option.map_some, Option.some.injEq] at h
        rw [(pop_keys q).1 (by rw [h]; simp)]
        rfl
    · rfl
  have h2 : ∀ b q, (if (t b).head?.map (·.kind) = some (.coll c) then (t b).tail else t b).filterMap (recvKey (g b) q)
      = (t b).filterMap (recvKey (g b) q) := by
    intro b q
    split
    · rename_i h
      cases e : t b with
      | nil => rfl
      | cons a u =>
        rw [e] at h
        simp only [List.head?_cons, Option.map_some, Option.some.injEq] at h
        rw [(pop_keys q).2 (by rw [h]; simp)]
        rfl
    · rfl
  refine ⟨fun p => if (t p).head?.map (·.kind) = some (.coll c) then (t p).tail else t p, ch, ?_, ?_, inv.chan, ?_⟩
  · intro p
    split
    · exact (List.tail_suffix _).trans (inv.suf p)
    · exact inv.suf p
  · intro p
    simp only [popColl]
    by_cases h : (t p).head?.map (·.kind) = some (.coll c)
    · rw [if_pos h, if_pos ((key p).2 h), inv.rem p, List.map_tail]
    · rw [if_neg h, if_neg (fun h' => h ((key p).1 h')), inv.rem p]
  · intro p q
    simp only [h1, h2]
    exact inv.pair p q

theorem EInv.step {L : Nat → List (Act α)} {g st t ch} (inv : EInv L g st t ch) {st' : EState α} (h : EStep st st') :
    ∃ t' ch', EInv L g st' t' ch' := by
  cases h with
  | sync _ h =>
    cases h with
    | loc p x l h => exact inv.step_loc h
    | recv p q x y l c hq hc => exact (inv.step_recv hq hc).2
    | meet p q x y l l' hne hp hq hc => exact (inv.step_meet hne hp hq hc).2
    | coll c _ _ => exact inv.step_coll c
  | buf p q x l h => exact inv.step_buf h

theorem EInv.reachBy {ph} {L : Nat → List (Act α)} {g} (ok : ExecOKBy ph L g) {k : Nat} {st : EState α}
    (h : ESteps k (EState.start (fun p => (L p).map Act.er)) st) : ∃ t ch, EInv L g st t ch := by
  generalize hs : EState.start (fun p => (L p).map Act.er) = s0 at h
  induction h with
  | nil => subst hs; exact ⟨_, _, EInv.startBy ok⟩
  | snoc _ hst ih =>
    obtain ⟨t, ch, i⟩ := ih hs
    exact i.step hst

theorem EInv.reach {L : Nat → List (Act α)} {g} (ok : ExecOK L g) {k : Nat} {st : EState α}
    (h : ESteps k (EState.start (fun p => (L p).map Act.er)) st) : ∃ t ch, EInv L g st t ch :=
  EInv.reachBy ok.by2 h

theorem EInv.headKeyBy {ph} {L : Nat → List (Act α)} {g st t ch} (ok : ExecOKBy ph L g) (inv : EInv L g st t ch) {p : Nat} {k : GKey}
    (hmin : ∀ p, ∀ a ∈ t p, ∀ k', gkeyBy ph (g p) p a = some k' → ¬ klt k' k)
    (hlocal : ∀ p x l, st.rem p ≠ (.other, x) :: l)
    {a : Act α} (ha : a ∈ t p) (hk : gkeyBy ph (g p) p a = some k) :
    ∃ b u, t p = b :: u ∧ gkeyBy ph (g p) p b = some k := by
  cases e : t p with
  | nil => rw [e] at ha; simp at ha
  | cons b u =>
    refine ⟨b, u, rfl, ?_⟩
    have hbk : b.kind ≠ .other := by
      intro hb
      apply hlocal p b.content (u.map Act.er)
      rw [inv.rem p, e, List.map_cons, Act.er, hb]
    obtain ⟨kb, hkb⟩ : ∃ kb, gkeyBy ph (g p) p b = some kb := by
      unfold gkeyBy
      split
      · rename_i h; exact absurd h hbk
      all_goals exact ⟨_, rfl⟩
    have hm := hmin p b (by rw [e]; exact List.mem_cons_self) kb hkb
    rw [e] at ha
    rcases List.mem_cons.1 ha with rfl | ha
    · exact hk
    · have ho : (t p).Pairwise _ := (ok.order p).sublist (inv.suf p).sublist
      rw [e, List.pairwise_cons] at ho
      have hlt := ho.1 a ha kb k hkb hk
      rw [klt_tri hm hlt] at hkb
      exact hkb

theorem EInv.progressBy {ph : Nat → Nat → Nat} (hph : ∀ p q, 0 < ph p q)
    {L : Nat → List (Act α)} {g st t ch} (ok : ExecOKBy ph L g) (inv : EInv L g st t ch) :
    EDone st ∨ ∃ st', RStep st st' := by
  by_cases hlocal : ∀ p x l, st.rem p ≠ (.other, x) :: l
  swap
  · right
    simp only [not_forall, not_not] at hlocal
    obtain ⟨p, x, l, h⟩ := hlocal
    exact ⟨_, RStep.loc st p x l h⟩
  by_cases hex : ∃ k : GKey, ∃ p, ∃ a ∈ t p, gkeyBy ph (g p) p a = some k
  · right
    obtain ⟨k, ⟨p0, a0, ha0, hk0⟩, hmin'⟩ := klt_wf.has_min {k | ∃ p, ∃ a ∈ t p, gkeyBy ph (g p) p a = some k} hex
    have hmin : ∀ p, ∀ a ∈ t p, ∀ k', gkeyBy ph (g p) p a = some k' → ¬ klt k' k :=
      fun p a ha k' hk' => hmin' k' ⟨p, a, ha, hk'⟩
    have hhead := fun {p : Nat} {a : Act α} => inv.headKeyBy ok hmin hlocal (p := p) (a := a)
    -- a message: the receive is always left
    have msg : ∀ p q : Nat, k = (k.1, ph p q, p, q) → p ≠ q →
        (∃ x, (k.1, x) ∈ (t q).filterMap (recvKey (g q) p)) → ∃ st', RStep st st' := by
      intro p q hk hpq ⟨x, hx⟩
      obtain ⟨a, ha, hax⟩ := List.mem_filterMap.1 hx
      have haq : a.kind = .recv p ∧ g q a.round = k.1 := by
        unfold recvKey at hax
        split at hax
        · rename_i h
          simp only [Option.some.injEq, Prod.mk.injEq] at hax
          exact ⟨h, hax.1⟩
        · exact absurd hax (by simp)
      have hka : gkeyBy ph (g q) q a = some k := by
        unfold gkeyBy
        rw [haq.1, hk]
        simp only [haq.2]
      obtain ⟨b, u, et, hkb⟩ := hhead ha hka
      have hbk : b.kind = .recv p := by
        unfold gkeyBy at hkb
        rw [hk] at hkb
        split at hkb
        · exact absurd hkb (by simp)
        · simp only [Option.some.injEq, Prod.mk.injEq] at hkb
          have h0 := hkb.2.1
          exact absurd h0 (by first | exact Nat.ne_of_gt (hph _ _) | exact Nat.ne_of_lt (hph _ _))
        · simp only [Option.some.injEq, Prod.mk.injEq] at hkb
          exact absurd hkb.2.2.1 (Ne.symm hpq)
        · rename_i q' h
          simp only [Option.some.injEq, Prod.mk.injEq] at hkb
          rw [h, hkb.2.2.1]
      have hrq : st.rem q = (.recv p, b.content) :: u.map Act.er := by
        rw [inv.rem q, et, List.map_cons, Act.er, hbk]
      cases ech : st.chan p q with
      | cons y c => exact ⟨_, RStep.recv st p q y b.content _ c hrq ech⟩
      | nil =>
        have hch : ch p q = [] := by
          have := inv.chan p q
          rw [ech] at this
          exact List.map_eq_nil_iff.1 this.symm
        have hpair := inv.pair p q
        rw [hch, List.nil_append] at hpair
        rw [← hpair] at hx
        obtain ⟨a', ha', hax'⟩ := List.mem_filterMap.1 hx
        have haq' : a'.kind = .send q ∧ g p a'.round = k.1 := by
          unfold sendKey at hax'
          split at hax'
          · rename_i h
            simp only [Option.some.injEq, Prod.mk.injEq] at hax'
            exact ⟨h, hax'.1⟩
          · exact absurd hax' (by simp)
        have hka' : gkeyBy ph (g p) p a' = some k := by
          unfold gkeyBy
          rw [haq'.1, hk]
          simp only [haq'.2]
        obtain ⟨b', u', et', hkb'⟩ := hhead ha' hka'
        have hbk' : b'.kind = .send q := by
          unfold gkeyBy at hkb'
          rw [hk] at hkb'
          split at hkb'
          · exact absurd hkb' (by simp)
          · simp only [Option.some.injEq, Prod.mk.injEq] at hkb'
            have h0 := hkb'.2.1
            exact absurd h0 (by first | exact Nat.ne_of_gt (hph _ _) | exact Nat.ne_of_lt (hph _ _))
          · rename_i q' h
            simp only [Option.some.injEq, Prod.mk.injEq] at hkb'
            rw [h, hkb'.2.2.2]
          · simp only [Option.some.injEq, Prod.mk.injEq] at hkb'
            exact absurd hkb'.2.2.2 hpq
        have hrp : st.rem p = (.send q, b'.content) :: u'.map Act.er := by
          rw [inv.rem p, et', List.map_cons, Act.er, hbk']
        exact ⟨_, RStep.meet st p q _ _ _ _ hpq hrp hrq ech⟩
    have hself := ok.nself p0 a0 ((inv.suf p0).subset ha0)
    cases hkind : a0.kind with
    | other => rw [gkeyBy, hkind] at hk0; simp at hk0
    | send q =>
      have hpq : p0 ≠ q := by rintro rfl; exact hself.1 hkind
      rw [gkeyBy, hkind] at hk0
      simp only [Option.some.injEq] at hk0
      apply msg p0 q (by rw [← hk0]) hpq
      refine ⟨a0.content, ?_⟩
      rw [← inv.pair p0 q]
      apply List.mem_append_right
      apply List.mem_filterMap.2 ⟨a0, ha0, ?_⟩
      simp [sendKey, hkind, ← hk0]
    | recv q =>
      have hpq : q ≠ p0 := by rintro rfl; exact hself.2 hkind
      rw [gkeyBy, hkind] at hk0
      simp only [Option.some.injEq] at hk0
      apply msg q p0 (by rw [← hk0]) hpq
      refine ⟨a0.content, List.mem_filterMap.2 ⟨a0, ha0, ?_⟩⟩
      simp [recvKey, hkind, ← hk0]
    | coll c =>
      rw [gkeyBy, hkind] at hk0
      simp only [Option.some.injEq] at hk0
      have hany : ∀ p, ∀ a ∈ t p, a.kind = .coll c → ∃ x l, st.rem p = (.coll c, x) :: l := by
        intro p a ha hac
        have hg := ok.colls p p0 a ((inv.suf p).subset ha) a0 ((inv.suf p0).subset ha0) c hac hkind
        have hka : gkeyBy ph (g p) p a = some k := by
          unfold gkeyBy
          rw [hac]
          simp only [hg, hk0]
        obtain ⟨b, u, et, hkb⟩ := hhead ha hka
        have hbk : b.kind = .coll c := by
          unfold gkeyBy at hkb
          rw [← hk0] at hkb
          split at hkb
          · exact absurd hkb (by simp)
          · rename_i c' h
            simp only [Option.some.injEq, Prod.mk.injEq] at hkb
            rw [h, hkb.2.2.1]
          · simp only [Option.some.injEq, Prod.mk.injEq] at hkb
            have h0 := hkb.2.1
            exact absurd h0 (by first | exact Nat.ne_of_gt (hph _ _) | exact Nat.ne_of_lt (hph _ _))
          · simp only [Option.some.injEq, Prod.mk.injEq] at hkb
            have h0 := hkb.2.1
            exact absurd h0 (by first | exact Nat.ne_of_gt (hph _ _) | exact Nat.ne_of_lt (hph _ _))
        exact ⟨b.content, u.map Act.er, by rw [inv.rem p, et, List.map_cons, Act.er, hbk]⟩
      refine ⟨_, RStep.coll st c ?_ ?_⟩
      · obtain ⟨x, l, h⟩ := hany p0 a0 ha0 hkind
        exact ⟨p0, x, l, h⟩
      · intro p x hx
        rw [inv.rem p] at hx
        obtain ⟨a, ha, hax⟩ := List.mem_map.1 hx
        simp only [Act.er, Prod.mk.injEq] at hax
        exact hany p a ha hax.1
  · left
    have hnil : ∀ p, t p = [] := by
      intro p
      cases e : t p with
      | nil => rfl
      | cons a u =>
        exfalso
        have hak : a.kind ≠ .other := by
          intro hb
          apply hlocal p a.content (u.map Act.er)
          rw [inv.rem p, e, List.map_cons, Act.er, hb]
        apply hex
        cases hg : gkeyBy ph (g p) p a with
        | some k => exact ⟨k, p, a, by rw [e]; exact List.mem_cons_self, hg⟩
        | none =>
          exfalso
          unfold gkeyBy at hg
          split at hg
          · rename_i h; exact hak h
          all_goals exact absurd hg (by simp)
    constructor
    · intro p; rw [inv.rem p, hnil p]; rfl
    · intro p q
      have := inv.pair p q
      rw [hnil p, hnil q] at this
      rw [inv.chan p q]
      simpa using this

theorem EInv.progress {L : Nat → List (Act α)} {g st t ch} (ok : ExecOK L g) (inv : EInv L g st t ch) :
    EDone st ∨ ∃ st', RStep st st' :=
  inv.progressBy (fun p q => by unfold phase2; split <;> omega) ok.by2

end Laik
