import Verif.Model.SplitReduce
/-!
# Lemmas about message passing programs and manual reductions
-/

namespace Laik

variable {V : Type}

/-! ### Runs with known received values -/

/-- Received value if the one from `q` to `p` is `v q p`. -/
def RA.rv (v : Nat → Nat → V) (p : Nat) (s : LSt V) (a : RA) : V :=
  match a.recvs with
  | some q => v q p
  | none => s.res

def runO (c : RedCtx V) (v : Nat → Nat → V) (p : Nat) : List RA → LSt V → LSt V
  | [], s => s
  | a :: l, s => runO c v p l (a.eff c p (a.rv v p s) s)

/-- All values sent are the expected ones. -/
def okO (c : RedCtx V) (v : Nat → Nat → V) (p : Nat) : List RA → LSt V → Prop
  | [], _ => True
  | a :: l, s => (∀ q x, a.sends s = some (q, x) → x = v p q) ∧ okO c v p l (a.eff c p (a.rv v p s) s)

theorem runO_append (c : RedCtx V) (v : Nat → Nat → V) (p : Nat) (a b : List RA) : ∀ s,
    runO c v p (a ++ b) s = runO c v p b (runO c v p a s) := by
  induction a with
  | nil => intro s; rfl
  | cons x a ih => intro s; exact ih _

theorem okO_append (c : RedCtx V) (v : Nat → Nat → V) (p : Nat) (a b : List RA) : ∀ s,
    okO c v p (a ++ b) s ↔ okO c v p a s ∧ okO c v p b (runO c v p a s) := by
  induction a with
  | nil => intro s; simp [okO, runO]
  | cons x a ih => intro s; simp only [List.cons_append, okO, runO, ih, and_assoc]

theorem set_rem_self (s : NSt V) (p : Nat) (l : List RA) (m : LSt V) (ch : Nat → Nat → List V) : (s.set p l m ch).rem p = l := if_pos rfl
theorem set_loc_self (s : NSt V) (p : Nat) (l : List RA) (m : LSt V) (ch : Nat → Nat → List V) : (s.set p l m ch).loc p = m := if_pos rfl
theorem set_rem_ne (s : NSt V) (p : Nat) (l : List RA) (m : LSt V) (ch : Nat → Nat → List V) {i : Nat} (h : i ≠ p) : (s.set p l m ch).rem i = s.rem i := if_neg h
theorem set_loc_ne (s : NSt V) (p : Nat) (l : List RA) (m : LSt V) (ch : Nat → Nat → List V) {i : Nat} (h : i ≠ p) : (s.set p l m ch).loc i = s.loc i := if_neg h

theorem eff_send (c : RedCtx V) (p : Nat) (v : V) (s : LSt V) {a : RA} {q : Nat} {x : V} (h : a.sends s = some (q, x)) : a.eff c p v s = s := by
  cases a <;> simp [RA.sends] at h <;> rfl

theorem recvs_of_sends {s : LSt V} {a : RA} {q : Nat} {x : V} (h : a.sends s = some (q, x)) : a.recvs = none := by
  cases a <;> simp [RA.sends] at h <;> rfl

/-- If each program sends the expected values as long as it receives the expected
values, then processes do what they do with expected values, for all
interleavings. -/
theorem oracle (c : RedCtx V) (v : Nat → Nat → V) (prog : Nat → List RA) (loc : Nat → LSt V)
    (hok : ∀ p, okO c v p (prog p) (loc p)) (s : NSt V) (h : NSteps c (NSt.start prog loc) s) :
    (∀ p, okO c v p (s.rem p) (s.loc p) ∧ runO c v p (s.rem p) (s.loc p) = runO c v p (prog p) (loc p)) ∧
    ∀ p q, ∀ x ∈ s.chan p q, x = v p q := by
  induction h with
  | refl => exact ⟨fun p => ⟨hok p, rfl⟩, fun p q x hx => by simp [NSt.start] at hx⟩
  | step _ hst ih =>
    obtain ⟨h1, h2⟩ := ih
    cases hst with
    | send p a l q x hr hs =>
      have hp := h1 p
      rw [hr] at hp
      simp only [okO, runO, eff_send c p _ _ hs] at hp
      constructor
      · intro i
        by_cases hi : i = p
        · subst hi; rw [set_rem_self, set_loc_self]; exact ⟨hp.1.2, hp.2⟩
        · rw [set_rem_ne _ _ _ _ _ hi, set_loc_ne _ _ _ _ _ hi]; exact h1 i
      · intro i j y hy
        simp only [NSt.set, setCh] at hy
        split at hy
        · rename_i hij
          obtain ⟨rfl, rfl⟩ := hij
          rcases List.mem_append.1 hy with hy | hy
          · exact h2 _ _ y hy
          · rw [List.mem_singleton] at hy; subst hy; exact hp.1.1 _ _ hs
        · exact h2 _ _ y hy
    | recv p a l q x r hr hs hc =>
      have hp := h1 p
      rw [hr] at hp
      have hx : x = v q p := h2 q p x (by rw [hc]; exact List.mem_cons_self)
      have hrv : ∀ st, a.rv v p st = x := by
        intro st; unfold RA.rv; rw [hs]; exact hx.symm
      simp only [okO, runO, hrv] at hp
      constructor
      · intro i
        by_cases hi : i = p
        · subst hi; rw [set_rem_self, set_loc_self]; exact ⟨hp.1.2, hp.2⟩
        · rw [set_rem_ne _ _ _ _ _ hi, set_loc_ne _ _ _ _ _ hi]; exact h1 i
      · intro i j y hy
        simp only [NSt.set, setCh] at hy
        split at hy
        · rename_i hij
          obtain ⟨rfl, rfl⟩ := hij
          exact h2 _ _ y (by rw [hc]; exact List.mem_cons_of_mem _ hy)
        · exact h2 _ _ y hy
    | «local» p a l hr hs hn =>
      have hp := h1 p
      rw [hr] at hp
      have hrv : ∀ st, a.rv v p st = st.res := by
        intro st; unfold RA.rv; rw [hn]
      simp only [okO, runO, hrv] at hp
      constructor
      · intro i
        by_cases hi : i = p
        · subst hi; rw [set_rem_self, set_loc_self]; exact ⟨hp.1.2, hp.2⟩
        · rw [set_rem_ne _ _ _ _ _ hi, set_loc_ne _ _ _ _ _ hi]; exact h1 i
      · exact h2

/-! ### Progress -/

/-- Partner of a send. -/
def RA.dst : RA → Option Nat
  | .send q => some q
  | .sendRes q => some q
  | _ => none

theorem sends_dst {s : LSt V} {a : RA} {q : Nat} {x : V} (h : a.sends s = some (q, x)) : a.dst = some q := by
  cases a <;> simp [RA.sends] at h <;> simp [RA.dst, h]

theorem dst_sends (s : LSt V) {a : RA} {q : Nat} (h : a.dst = some q) : ∃ x, a.sends s = some (q, x) := by
  cases a <;> simp [RA.dst] at h <;> simp [RA.sends, h]

def nS (q : Nat) (l : List RA) : Nat := l.countP (fun a => decide (a.dst = some q))
def nR (q : Nat) (l : List RA) : Nat := l.countP (fun a => decide (a.recvs = some q))

/-- Order of the parts of a manual reduction. -/
def RA.key : RA → Nat
  | .send _ => 0
  | .recvSlot _ _ => 1
  | .recvIn _ => 1
  | .recvAcc _ => 1
  | .sendRes _ => 4
  | .recvRes _ => 5
  | _ => 1

structure Sound (prog : Nat → List RA) : Prop where
  eq : ∀ p q, nS q (prog p) = nR p (prog q)
  le : ∀ p q, nR p (prog q) ≤ 1
  sorted : ∀ p, (prog p).Pairwise (fun a b => a.key ≤ b.key)
  lt : ∀ p q, ∀ a ∈ prog p, a.dst = some q → ∀ b ∈ prog q, b.recvs = some p → a.key < b.key

theorem counts (c : RedCtx V) (prog : Nat → List RA) (loc : Nat → LSt V) (s : NSt V) (h : NSteps c (NSt.start prog loc) s) :
    ∃ dn : Nat → List RA, (∀ p, prog p = dn p ++ s.rem p) ∧ ∀ p q, (s.chan p q).length + nR p (dn q) = nS q (dn p) := by
  induction h with
  | refl => exact ⟨fun _ => [], fun p => rfl, fun p q => rfl⟩
  | step _ hst ih =>
    obtain ⟨dn, h1, h2⟩ := ih
    have hsplit : ∀ (st : NSt V) (p : Nat) (a : RA) (l : List RA) m ch, (∀ p, prog p = dn p ++ st.rem p) → st.rem p = a :: l →
        ∀ i, prog i = (if i = p then dn p ++ [a] else dn i) ++ (st.set p l m ch).rem i := by
      intro st p a l m ch h hr i
      by_cases hi : i = p
      · subst hi; rw [set_rem_self, if_pos rfl, h i, hr]; simp
      · rw [set_rem_ne _ _ _ _ _ hi, if_neg hi]; exact h i
    have hS : ∀ (p : Nat) (a : RA) i q, nS q (if i = p then dn p ++ [a] else dn i) = nS q (dn i) + (if i = p ∧ a.dst = some q then 1 else 0) := by
      intro p a i q
      by_cases hi : i = p
      · subst hi
        rw [if_pos rfl]
        unfold nS
        rw [List.countP_append, List.countP_singleton]
        by_cases h : a.dst = some q <;> simp [h]
      · rw [if_neg hi]; simp [hi]
    have hR : ∀ (p : Nat) (a : RA) i q, nR q (if i = p then dn p ++ [a] else dn i) = nR q (dn i) + (if i = p ∧ a.recvs = some q then 1 else 0) := by
      intro p a i q
      by_cases hi : i = p
      · subst hi
        rw [if_pos rfl]
        unfold nR
        rw [List.countP_append, List.countP_singleton]
        by_cases h : a.recvs = some q <;> simp [h]
      · rw [if_neg hi]; simp [hi]
    cases hst with
    | send p a l q x hr hs =>
      refine ⟨_, hsplit _ p a l _ _ h1 hr, ?_⟩
      intro i j
      rw [hS, hR, recvs_of_sends hs, sends_dst hs]
      simp only [NSt.set, setCh]
      have := h2 i j
      by_cases hij : i = p ∧ j = q
      · obtain ⟨rfl, rfl⟩ := hij
        simp; omega
      · have : ¬ (i = p ∧ some q = some j) := by
          rintro ⟨h1, h2⟩; injection h2 with h2; exact hij ⟨h1, h2.symm⟩
        simp only [if_neg hij, if_neg this]
        simp; omega
    | recv p a l q x r hr hs hc =>
      refine ⟨_, hsplit _ p a l _ _ h1 hr, ?_⟩
      intro i j
      have hd : a.dst = none := by
        cases a <;> simp [RA.recvs] at hs <;> rfl
      rw [hS, hR, hs, hd]
      simp only [NSt.set, setCh]
      have := h2 i j
      by_cases hij : i = q ∧ j = p
      · obtain ⟨rfl, rfl⟩ := hij
        rw [hc] at this
        simp at this ⊢; omega
      · have : ¬ (j = p ∧ some q = some i) := by
          rintro ⟨h1, h2⟩; injection h2 with h2; exact hij ⟨h2.symm, h1⟩
        simp only [if_neg hij, if_neg this]
        simp; omega
    | «local» p a l hr hs hn =>
      refine ⟨_, hsplit _ p a l _ _ h1 hr, ?_⟩
      intro i j
      have hd : a.dst = none := by
        cases a <;> simp [RA.sends] at hs <;> rfl
      rw [hS, hR, hn, hd]
      have := h2 i j
      simp only [NSt.set]
      simp; omega

theorem net_progress (c : RedCtx V) (prog : Nat → List RA) (hp : Sound prog) (loc : Nat → LSt V) (s : NSt V)
    (h : NSteps c (NSt.start prog loc) s) (hd : ¬ s.done) : ∃ s', NStep c s s' := by
  obtain ⟨dn, h1, h2⟩ := counts c prog loc s h
  have key : ∀ n p a l, s.rem p = a :: l → a.key ≤ n → ∃ s', NStep c s s' := by
    intro n
    induction n with
    | zero =>
      intro p a l hr hk
      cases ha : a.dst with
      | some q =>
        obtain ⟨x, hx⟩ := dst_sends (s.loc p) ha
        exact ⟨_, NStep.send s p a l q x hr hx⟩
      | none => cases a <;> simp [RA.key, RA.dst] at hk ha
    | succ n ih =>
      intro p a l hr hk
      cases ha : a.dst with
      | some q =>
        obtain ⟨x, hx⟩ := dst_sends (s.loc p) ha
        exact ⟨_, NStep.send s p a l q x hr hx⟩
      | none =>
        cases hb : a.recvs with
        | none =>
          have hs : a.sends (s.loc p) = none := by
            cases a <;> simp [RA.dst] at ha <;> rfl
          exact ⟨_, NStep.local s p a l hr hs hb⟩
        | some q =>
          cases hc : s.chan q p with
          | cons x r => exact ⟨_, NStep.recv s p a l q x r hr hb hc⟩
          | nil =>
            have e2 := h2 q p
            rw [hc] at e2
            have hap : a ∈ prog p := by rw [h1 p, hr]; simp
            have hle := hp.le q p
            have heq := hp.eq q p
            have hsplit : nR q (prog p) = nR q (dn p) + nR q (a :: l) := by
              rw [h1 p, hr]; unfold nR; rw [List.countP_append]
            have hhd : 1 ≤ nR q (a :: l) := by
              unfold nR; rw [List.countP_cons]; simp [hb]
            have hsplit2 : nS p (prog q) = nS p (dn q) + nS p (s.rem q) := by
              rw [h1 q]; unfold nS; rw [List.countP_append]
            have hpos : 0 < nS p (s.rem q) := by simp at e2; omega
            unfold nS at hpos
            rw [List.countP_pos_iff] at hpos
            obtain ⟨b, hbm, hbd⟩ := hpos
            simp only [decide_eq_true_eq] at hbd
            have hbq : b ∈ prog q := by rw [h1 q]; exact List.mem_append_right _ hbm
            have hlt := hp.lt q p b hbq hbd a hap hb
            cases hrq : s.rem q with
            | nil => rw [hrq] at hbm; simp at hbm
            | cons b0 l0 =>
              rw [hrq] at hbm
              have hsort := hp.sorted q
              rw [h1 q, hrq, List.pairwise_append] at hsort
              have hb0 : b0.key ≤ b.key := by
                rcases List.mem_cons.1 hbm with rfl | hm
                · exact Nat.le_refl _
                · exact (List.pairwise_cons.1 hsort.2.1).1 b hm
              exact ih q b0 l0 hrq (by omega)
  have : ∃ p, s.rem p ≠ [] := by
    by_contra hn
    exact hd (fun p => by by_contra hh; exact hn ⟨p, hh⟩)
  obtain ⟨p, hpn⟩ := this
  cases hr : s.rem p with
  | nil => exact absurd hr hpn
  | cons a l => exact key _ p a l hr (Nat.le_refl _)

/-! ### Termination -/

/-- Number of actions still to do by processes below `n`. -/
def remLen (rem : Nat → List RA) (n : Nat) : Nat := ((List.range n).map (fun p => (rem p).length)).sum

theorem remLen_succ (rem : Nat → List RA) (n : Nat) : remLen rem (n + 1) = remLen rem n + (rem n).length := by
  unfold remLen
  rw [List.range_succ, List.map_append, List.sum_append]; simp

theorem remLen_set (s : NSt V) (p : Nat) (a : RA) (l : List RA) (m : LSt V) (ch : Nat → Nat → List V) (hr : s.rem p = a :: l) :
    ∀ n, (p < n → remLen (s.set p l m ch).rem n + 1 = remLen s.rem n) ∧ (n ≤ p → remLen (s.set p l m ch).rem n = remLen s.rem n) := by
  intro n
  induction n with
  | zero => exact ⟨by omega, fun _ => rfl⟩
  | succ n ih =>
    rw [remLen_succ, remLen_succ]
    by_cases h : n = p
    · subst h
      rw [set_rem_self, hr, ih.2 (Nat.le_refl _)]
      simp only [List.length_cons]
      omega
    · rw [set_rem_ne _ _ _ _ _ h]
      constructor
      · intro hp; have := ih.1 (by omega); omega
      · intro hp; have := ih.2 (by omega); omega

/-- Each step reduces the number of actions to do by one. -/
theorem step_len (c : RedCtx V) (s s' : NSt V) (h : NStep c s s') (n : Nat) (hn : ∀ p, n ≤ p → s.rem p = []) :
    remLen s'.rem n + 1 = remLen s.rem n ∧ ∀ p, n ≤ p → s'.rem p = [] := by
  have key : ∀ p a l m ch, s.rem p = a :: l → remLen (s.set p l m ch).rem n + 1 = remLen s.rem n ∧ ∀ i, n ≤ i → (s.set p l m ch).rem i = [] := by
    intro p a l m ch hr
    have hp : p < n := by
      by_contra hh
      rw [hn p (by omega)] at hr; simp at hr
    refine ⟨(remLen_set s p a l m ch hr n).1 hp, ?_⟩
    intro i hi
    rw [set_rem_ne _ _ _ _ _ (by omega)]
    exact hn i hi
  cases h with
  | send p a l q x hr hs => exact key p a l _ _ hr
  | recv p a l q x r hr hs hc => exact key p a l _ _ hr
  | «local» p a l hr hs hn => exact key p a l _ _ hr

theorem NSteps.trans {c : RedCtx V} {s s' s'' : NSt V} (h : NSteps c s s') (h' : NSteps c s' s'') : NSteps c s s'' := by
  induction h' with
  | refl => exact h
  | step _ hs ih => exact .step ih hs

/-- Without deadlock, a finished state can be reached from everywhere. -/
theorem net_terminates (c : RedCtx V) (s0 : NSt V) (n : Nat) (hn : ∀ p, n ≤ p → s0.rem p = [])
    (hprog : ∀ s, NSteps c s0 s → ¬ s.done → ∃ s', NStep c s s') : ∃ s, NSteps c s0 s ∧ s.done := by
  have key : ∀ k s, NSteps c s0 s → (∀ p, n ≤ p → s.rem p = []) → remLen s.rem n = k → ∃ s, NSteps c s0 s ∧ s.done := by
    intro k
    induction k with
    | zero =>
      intro s hs hnn hk
      refine ⟨s, hs, ?_⟩
      by_contra hd
      obtain ⟨s', hst⟩ := hprog s hs hd
      have := (step_len c s s' hst n hnn).1
      omega
    | succ k ih =>
      intro s hs hnn hk
      by_cases hd : s.done
      · exact ⟨s, hs, hd⟩
      · obtain ⟨s', hst⟩ := hprog s hs hd
        obtain ⟨h1, h2⟩ := step_len c s s' hst n hnn
        exact ih s' (.step hs hst) h2 (by omega)
  exact key _ s0 (.refl _) hn rfl

end Laik
