import Verif.Model.Combine
/-!
# Lemmas about operations and about combining
-/

namespace Laik

/-- Different members of a list with pairwise related entries are related in one
of the two directions. -/
theorem pairwise_or {α : Type} {R : α → α → Prop} {l : List α} (h : l.Pairwise R) {a b : α}
    (ha : a ∈ l) (hb : b ∈ l) (hne : a ≠ b) : R a b ∨ R b a := by
  induction h with
  | nil => simp at ha
  | cons h1 _ ih =>
    rcases List.mem_cons.1 ha with ea | ha2 <;> rcases List.mem_cons.1 hb with eb | hb2
    · exact absurd (ea.trans eb.symm) hne
    · exact Or.inl (ea ▸ h1 _ hb2)
    · exact Or.inr (eb ▸ h1 _ ha2)
    · exact ih ha2 hb2

set_option linter.unusedSectionVars false

section
variable {K β : Type} [DecidableEq K]

theorem MSt.ext' {s t : MSt K β} (h1 : ∀ x, s.mem x = t.mem x) (h2 : ∀ k, s.pos k = t.pos k) (h3 : ∀ k, s.out k = t.out k) : s = t := by
  cases s; cases t
  simp only [MSt.mk.injEq]
  exact ⟨funext h1, funext h2, funext h3⟩

/-- Independent operations. -/
def Indep (a b : MOp K β) : Prop := MemIndep a b ∧ KeyIndep a b

theorem Indep.symm {a b : MOp K β} (h : Indep a b) : Indep b a := by
  refine ⟨⟨fun x hx => ⟨h.1.2 x hx, ?_⟩, fun x hx => (h.1.1 x hx).1⟩, fun k hb ha => h.2 k ha hb⟩
  by_contra c
  simp only [Bool.not_eq_false] at c
  rw [(h.1.1 x c).2] at hx
  exact absurd hx (by simp)

theorem posOf_run {a b : MOp K β} (h : KeyIndep a b) (s : MSt K β) : b.posOf (a.run s) = b.posOf s := by
  unfold MOp.posOf
  cases hb : b.key with
  | none => rfl
  | some k =>
    simp only [Option.map_some, Option.getD_some, MOp.run]
    rw [if_neg]
    intro ha
    exact h k ha hb

theorem run_mem (o : MOp K β) (s : MSt K β) (x : Nat) :
    (o.run s).mem x = if o.W x = true then o.val s.mem (o.posOf s) x else s.mem x := rfl

theorem run_comm {a b : MOp K β} (h : Indep a b) (s : MSt K β) : b.run (a.run s) = a.run (b.run s) := by
  have hs := h.symm
  have ra : ∀ y, b.R y → (a.run s).mem y = s.mem y := by
    intro y hy
    have : a.W y = false := by
      by_contra c
      simp only [Bool.not_eq_false] at c
      exact (h.1.1 y c).1 hy
    simp [MOp.run, this]
  have rb : ∀ y, a.R y → (b.run s).mem y = s.mem y := by
    intro y hy
    have : b.W y = false := by
      by_contra c
      simp only [Bool.not_eq_false] at c
      exact (hs.1.1 y c).1 hy
    simp [MOp.run, this]
  apply MSt.ext'
  · intro x
    by_cases ca : a.W x = true
    · have cb := (h.1.1 x ca).2
      have e1 : (b.run (a.run s)).mem x = (a.run s).mem x := by simp [MOp.run, cb]
      have e2 : (a.run (b.run s)).mem x = a.val (b.run s).mem (a.posOf (b.run s)) x := by
        rw [run_mem, if_pos ca]
      rw [e1, e2, posOf_run hs.2, a.val_local _ _ _ x rb ca]
      simp [MOp.run, ca]
    · have ca' : a.W x = false := by simpa using ca
      have e2 : (a.run (b.run s)).mem x = (b.run s).mem x := by
        rw [run_mem, if_neg ca]
      rw [e2]
      by_cases cb : b.W x = true
      · have e1 : (b.run (a.run s)).mem x = b.val (a.run s).mem (b.posOf (a.run s)) x := by
          rw [run_mem, if_pos cb]
        rw [e1, posOf_run h.2, b.val_local _ _ _ x ra cb]
        simp [MOp.run, cb]
      · simp [MOp.run, cb, ca']
  · intro k
    simp only [MOp.run]
    by_cases ca : a.key = some k
    · rw [if_neg (h.2 k ca), if_pos ca, if_pos ca, if_neg (h.2 k ca)]
    · rw [if_neg ca, if_neg ca]
  · intro k
    have oa : a.outB (b.run s).mem = a.outB s.mem := a.out_local _ _ rb
    have ob : b.outB (a.run s).mem = b.outB s.mem := b.out_local _ _ ra
    have e1 : (b.run (a.run s)).out k = if b.key = some k then (a.run s).out k ++ b.outB (a.run s).mem else (a.run s).out k := rfl
    have e2 : (a.run (b.run s)).out k = if a.key = some k then (b.run s).out k ++ a.outB (b.run s).mem else (b.run s).out k := rfl
    rw [e1, e2, oa, ob]
    simp only [MOp.run]
    by_cases ca : a.key = some k
    · rw [if_neg (h.2 k ca), if_pos ca, if_pos ca, if_neg (h.2 k ca)]
    · rw [if_neg ca, if_neg ca]

theorem runOps_append (a b : List (MOp K β)) (s : MSt K β) : runOps (a ++ b) s = runOps b (runOps a s) := by
  simp [runOps, List.foldl_append]

theorem runOps_cons (a : MOp K β) (b : List (MOp K β)) (s : MSt K β) : runOps (a :: b) s = runOps b (a.run s) := rfl

theorem run_runOps {a : MOp K β} {B : List (MOp K β)} (h : ∀ b ∈ B, Indep a b) (s : MSt K β) :
    runOps B (a.run s) = a.run (runOps B s) := by
  induction B generalizing s with
  | nil => rfl
  | cons b B ih =>
    rw [runOps_cons, runOps_cons, run_comm (h b List.mem_cons_self), ih (fun c hc => h c (List.mem_cons_of_mem _ hc))]

theorem runOps_comm {A B : List (MOp K β)} (h : ∀ a ∈ A, ∀ b ∈ B, Indep a b) (s : MSt K β) :
    runOps B (runOps A s) = runOps A (runOps B s) := by
  induction A generalizing s with
  | nil => rfl
  | cons a A ih =>
    rw [runOps_cons, runOps_cons, ih (fun c hc => h c (List.mem_cons_of_mem _ hc)), run_runOps (h a List.mem_cons_self)]

/-- Sequences of parts `f x`: reordering independent parts does not change the result. -/
theorem run_reorder {τ : Type} (f : τ → List (MOp K β)) (A' : List τ) : ∀ A : List τ, A'.Perm A →
    (∀ x y, [x, y].Sublist A → [y, x].Sublist A' → x ≠ y → ∀ a ∈ f x, ∀ b ∈ f y, Indep a b) →
    ∀ s, runOps (A.flatMap f) s = runOps (A'.flatMap f) s := by
  classical
  induction A' with
  | nil =>
    intro A hp _ s
    rw [List.nil_perm.1 hp]
  | cons y t ih =>
    intro A hp h s
    have hy : y ∈ A := hp.subset List.mem_cons_self
    obtain ⟨u, v, rfl, hu⟩ := List.eq_append_cons_of_mem hy
    have hp' : t.Perm (u ++ v) := by
      have : (u ++ y :: v).Perm (y :: (u ++ v)) := List.perm_middle
      exact (hp.trans this).cons_inv
    have hsub : (u ++ v).Sublist (u ++ y :: v) := (List.Sublist.refl u).append (List.sublist_cons_self y v)
    have ih' := ih (u ++ v) hp' (fun a b h1 h2 => h a b (h1.trans hsub) (h2.trans (List.sublist_cons_self y t)))
    have hmove : ∀ s, runOps (u.flatMap f) (runOps (f y) s) = runOps (f y) (runOps (u.flatMap f) s) := by
      intro s
      apply runOps_comm
      intro b hb a ha
      obtain ⟨x, hx, hax⟩ := List.mem_flatMap.1 ha
      have hne : x ≠ y := fun e => hu (e ▸ hx)
      have hxt : x ∈ t := by
        have : x ∈ y :: t := hp.symm.subset (List.mem_append_left _ hx)
        rcases List.mem_cons.1 this with e | e
        · exact absurd e hne
        · exact e
      refine (h x y ?_ ?_ hne a hax b hb).symm
      · have h1 : [x].Sublist u := List.singleton_sublist.2 hx
        have h2 : [y].Sublist (y :: v) := List.singleton_sublist.2 List.mem_cons_self
        exact h1.append h2
      · exact (List.singleton_sublist.2 hxt).cons_cons y
    rw [List.flatMap_append, List.flatMap_cons, List.flatMap_cons, runOps_append, runOps_append, runOps_append, ← hmove,
      ← ih', List.flatMap_append, runOps_append]

/-- Moving parts satisfying `p` to the front. -/
theorem run_filter {τ : Type} (f : τ → MOp K β) (p : τ → Bool) (A : List τ)
    (h : A.Pairwise (fun x y => p x = false → p y = true → Indep (f x) (f y))) :
    ∀ s, runOps (A.map f) s = runOps ((A.filter (fun x => !p x)).map f) (runOps ((A.filter p).map f) s) := by
  induction A with
  | nil => intro s; rfl
  | cons x A ih =>
    intro s
    rw [List.pairwise_cons] at h
    have ih := ih h.2
    cases hx : p x with
    | true => simp only [List.map_cons, List.filter_cons, hx, runOps_cons, if_true, ih, Bool.not_true, Bool.false_eq_true, if_false]
    | false =>
      simp only [List.map_cons, List.filter_cons, hx, runOps_cons, ih, Bool.not_false, Bool.false_eq_true, if_false, if_true]
      rw [run_runOps]
      intro b hb
      obtain ⟨y, hy, rfl⟩ := List.mem_map.1 hb
      rw [List.mem_filter] at hy
      exact h.1 y hy.1 hx hy.2

theorem SameOutside.refl (T : Nat → Prop) (s : MSt K β) : SameOutside T s s := ⟨rfl, rfl, fun _ _ => rfl⟩

theorem SameOutside.trans {T : Nat → Prop} {s t u : MSt K β} (h1 : SameOutside T s t) (h2 : SameOutside T t u) : SameOutside T s u :=
  ⟨h1.1.trans h2.1, h1.2.1.trans h2.2.1, fun x hx => (h1.2.2 x hx).trans (h2.2.2 x hx)⟩

theorem SameOutside.run {T : Nat → Prop} {s t : MSt K β} (h : SameOutside T s t) (o : MOp K β) (hR : ∀ x, o.R x → ¬ T x) :
    SameOutside T (o.run s) (o.run t) := by
  obtain ⟨h1, h2, h3⟩ := h
  have hr : ∀ y, o.R y → s.mem y = t.mem y := fun y hy => h3 y (hR y hy)
  have hp : o.posOf s = o.posOf t := by unfold MOp.posOf; rw [h2]
  refine ⟨?_, ?_, ?_⟩
  · funext k
    simp only [MOp.run, h1, o.out_local _ _ hr]
  · funext k
    simp only [MOp.run, h2]
  · intro x hx
    simp only [MOp.run]
    by_cases c : o.W x = true
    · rw [if_pos c, if_pos c, hp, o.val_local _ _ _ x hr c]
    · rw [if_neg c, if_neg c]; exact h3 x hx

/-! ### Lists of copies -/

theorem runOps_nokey {l : List (MOp K β)} (h : ∀ o ∈ l, o.key = none) (s : MSt K β) :
    (runOps l s).pos = s.pos ∧ (runOps l s).out = s.out := by
  induction l generalizing s with
  | nil => exact ⟨rfl, rfl⟩
  | cons o l ih =>
    obtain ⟨h1, h2⟩ := ih (fun o' ho => h o' (List.mem_cons_of_mem _ ho)) (o.run s)
    have hk := h o List.mem_cons_self
    rw [runOps_cons, h1, h2]
    constructor <;> funext k <;> simp [MOp.run, hk]

theorem runOps_nowrite {l : List (MOp K β)} {x : Nat} (h : ∀ o ∈ l, o.W x = false) (s : MSt K β) : (runOps l s).mem x = s.mem x := by
  induction l generalizing s with
  | nil => rfl
  | cons o l ih =>
    rw [runOps_cons, ih (fun o' ho => h o' (List.mem_cons_of_mem _ ho)), run_mem, if_neg]
    rw [h o List.mem_cons_self]
    simp

/-- `n` bytes from `src` to `dst`. -/
structure Cp where
  src : Nat
  dst : Nat
  n : Nat

def Cp.op (c : Cp) : MOp K β := copyOp c.src c.dst c.n

theorem copies_spec (l : List Cp)
    (h : l.Pairwise (fun c d => ∀ x, c.dst ≤ x → x < c.dst + c.n → ¬ (d.src ≤ x ∧ x < d.src + d.n) ∧ ¬ (d.dst ≤ x ∧ x < d.dst + d.n)))
    (s : MSt K β) :
    ∀ c ∈ l, ∀ t < c.n, (runOps (l.map Cp.op) s).mem (c.dst + t) = s.mem (c.src + t) := by
  induction l generalizing s with
  | nil => intro c hc; simp at hc
  | cons d l ih =>
    rw [List.pairwise_cons] at h
    intro c hc t ht
    rw [List.map_cons, runOps_cons]
    rcases List.mem_cons.1 hc with rfl | hc
    · rw [runOps_nowrite, run_mem, if_pos]
      · show s.mem (c.src + (c.dst + t - c.dst)) = _
        congr 1; omega
      · show decide _ = true
        simp only [decide_eq_true_eq]; omega
      · intro o ho
        obtain ⟨d, hd, rfl⟩ := List.mem_map.1 ho
        have := (h.1 d hd (c.dst + t) (by omega) (by omega)).2
        show decide _ = false
        simpa using this
    · rw [ih h.2 _ c hc t ht, run_mem, if_neg]
      show ¬ decide _ = true
      simp only [decide_eq_true_eq]
      intro hcon
      exact (h.1 c hc (c.src + t) hcon.1 hcon.2).1 ⟨by omega, by omega⟩

theorem readMem_append (m : Nat → β) (a n n' : Nat) : readMem m a (n + n') = readMem m a n ++ readMem m (a + n) n' := by
  unfold readMem
  rw [List.range_add, List.map_append, List.map_map]
  congr 1
  apply List.map_congr_left
  intro i _
  simp only [Function.comp]
  congr 1; omega

theorem readMem_congr {m m' : Nat → β} {a a' n : Nat} (h : ∀ t < n, m (a + t) = m' (a' + t)) : readMem m a n = readMem m' a' n := by
  unfold readMem
  apply List.map_congr_left
  intro i hi
  exact h i (List.mem_range.1 hi)

end

/-! ### A group of combined actions -/

variable {β : Type}

theorem entries_append (es : Nat) (ptr : CAct β → Nat) (A l : List (CAct β)) : ∀ off,
    entries es ptr off (A ++ l) = entries es ptr off A ++ entries es ptr (off + sumCount A) l := by
  induction A with
  | nil => intro off; simp [entries, sumCount]
  | cons a A ih =>
    intro off
    simp only [List.cons_append, entries, ih, sumCount, List.map_cons, List.sum_cons]
    rw [Nat.add_assoc]

theorem entries_length (es : Nat) (ptr : CAct β → Nat) (A : List (CAct β)) : ∀ off, (entries es ptr off A).length = A.length := by
  induction A with
  | nil => intro off; rfl
  | cons a A ih => intro off; simp [entries, ih]

/-- Entries come from actions, with offsets in the reserved part, and do not overlap. -/
theorem entries_mem (es : Nat) (ptr : CAct β → Nat) (A : List (CAct β)) : ∀ off, ∀ c ∈ entries es ptr off A,
    off * es ≤ c.offset ∧ c.offset + c.bytes ≤ (off + sumCount A) * es ∧ ∃ a ∈ A, c.ptr = ptr a ∧ c.bytes = a.count * es := by
  induction A with
  | nil => intro off c hc; simp [entries] at hc
  | cons a A ih =>
    intro off c hc
    have hs : sumCount (a :: A) = a.count + sumCount A := by simp [sumCount]
    rw [entries] at hc
    rcases List.mem_cons.1 hc with rfl | hc
    · refine ⟨Nat.le_refl _, ?_, a, List.mem_cons_self, rfl, rfl⟩
      simp only
      rw [← Nat.add_mul, hs]
      exact Nat.mul_le_mul_right _ (by omega)
    · obtain ⟨h1, h2, b, hb, h3⟩ := ih (off + a.count) c hc
      refine ⟨?_, ?_, b, List.mem_cons_of_mem _ hb, h3⟩
      · exact Nat.le_trans (Nat.mul_le_mul_right _ (by omega)) h1
      · rw [hs, ← Nat.add_assoc]; exact h2

theorem entries_pairwise (es : Nat) (ptr : CAct β → Nat) (A : List (CAct β)) : ∀ off,
    (entries es ptr off A).Pairwise (fun c d => c.offset + c.bytes ≤ d.offset) := by
  induction A with
  | nil => intro off; exact List.Pairwise.nil
  | cons a A ih =>
    intro off
    rw [entries, List.pairwise_cons]
    refine ⟨?_, ih _⟩
    intro d hd
    have := (entries_mem es ptr A _ d hd).1
    simp only
    rw [← Nat.add_mul]
    exact this

/-- Pairwise relation on actions carries over to their entries. -/
theorem entries_pairwise_of (es : Nat) (ptr : CAct β → Nat) (A : List (CAct β)) (P : Nat → Nat → Nat → Nat → Prop)
    (h : A.Pairwise (fun a b => P (ptr a) (a.count * es) (ptr b) (b.count * es))) : ∀ off,
    (entries es ptr off A).Pairwise (fun c d => P c.ptr c.bytes d.ptr d.bytes) := by
  induction A with
  | nil => intro off; exact List.Pairwise.nil
  | cons a A ih =>
    intro off
    rw [List.pairwise_cons] at h
    rw [entries, List.pairwise_cons]
    refine ⟨?_, ih h.2 _⟩
    intro d hd
    obtain ⟨_, _, b, hb, e1, e2⟩ := entries_mem es ptr A _ d hd
    rw [e1, e2]
    exact h.1 b hb

/-- Effect of a list of communications on the same channel. -/
theorem comms_spec (inp : CKey → Nat → β) (k : CKey) (i o : Bool) (es : Nat) (G : List (CAct β))
    (h : G.Pairwise (fun a b => MemIndep (commOp inp k i o a.src a.dst (a.count * es)) (commOp inp k i o b.src b.dst (b.count * es))))
    (s : MSt CKey β) (s' : MSt CKey β) (hs' : s' = runOps (G.map (fun g => commOp inp k i o g.src g.dst (g.count * es))) s) :
    (s'.out k = s.out k ++ if i then G.flatMap (fun g => readMem s.mem g.src (g.count * es)) else []) ∧
    (∀ k', k' ≠ k → s'.out k' = s.out k' ∧ s'.pos k' = s.pos k') ∧
    (s'.pos k = s.pos k + if o then sumCount G * es else 0) ∧
    (∀ A g C, G = A ++ g :: C → o = true → ∀ t < g.count * es, s'.mem (g.dst + t) = inp k (s.pos k + sumCount A * es + t)) ∧
    (∀ x, (∀ g ∈ G, ¬ (o = true ∧ g.dst ≤ x ∧ x < g.dst + g.count * es)) → s'.mem x = s.mem x) := by
  induction G generalizing s with
  | nil =>
    subst hs'
    refine ⟨by simp [runOps], by simp [runOps], by simp [runOps, sumCount], ?_, by simp [runOps]⟩
    intro A g C hG
    simp at hG
  | cons g G ih =>
    rw [List.pairwise_cons] at h
    rw [List.map_cons, runOps_cons] at hs'
    obtain ⟨h1, h2, h3, h4, h5⟩ := ih h.2 _ hs'
    have hs : sumCount (g :: G) = g.count + sumCount G := by simp [sumCount]
    have hrun : ∀ x, ¬ (o = true ∧ g.dst ≤ x ∧ x < g.dst + g.count * es) →
        ((commOp inp k i o g.src g.dst (g.count * es)).run s).mem x = s.mem x := by
      intro x hx
      rw [run_mem, if_neg]
      show ¬ ((o && decide _) = true)
      simpa using hx
    refine ⟨?_, ?_, ?_, ?_, ?_⟩
    · rw [h1]
      have e : ((commOp inp k i o g.src g.dst (g.count * es)).run s).out k =
          s.out k ++ if i then readMem s.mem g.src (g.count * es) else [] := by
        simp [MOp.run, commOp]
      rw [e]
      cases i with
      | false => simp
      | true =>
        simp only [if_true, List.flatMap_cons, List.append_assoc, List.append_cancel_left_eq]
        rw [List.flatMap_def, List.flatMap_def]
        congr 1
        apply List.map_congr_left
        intro g' hg'
        apply readMem_congr
        intro t ht
        apply hrun
        rintro ⟨ho, hx⟩
        have := ((h.1 g' hg').1 (g'.src + t) (by simp [commOp, ho]; exact hx)).1
        exact this ⟨rfl, by omega, by omega⟩
    · intro k' hk'
      obtain ⟨e1, e2⟩ := h2 k' hk'
      rw [e1, e2]
      simp [MOp.run, commOp, Ne.symm hk']
    · rw [h3, hs]
      cases o with
      | false => simp [MOp.run, commOp]
      | true => simp [MOp.run, commOp, Nat.add_mul]; omega
    · intro A g' C hG ho t ht
      cases A with
      | nil =>
        simp only [List.nil_append, List.cons.injEq] at hG
        obtain ⟨rfl, rfl⟩ := hG
        rw [h5]
        · rw [run_mem, if_pos (by simp [commOp, ho]; omega)]
          simp only [commOp, MOp.posOf, Option.map_some, Option.getD_some, sumCount, List.map_nil, List.sum_nil]
          congr 1; omega
        · rintro g' hg' ⟨_, hx⟩
          have := ((h.1 g' hg').1 (g.dst + t) (by simp [commOp, ho]; omega)).2
          simp [commOp, ho] at this
          omega
      | cons a A =>
        simp only [List.cons_append, List.cons.injEq] at hG
        obtain ⟨rfl, hG⟩ := hG
        rw [h4 A g' C hG ho t ht]
        congr 1
        have : ((commOp inp k i o g.src g.dst (g.count * es)).run s).pos k = s.pos k + g.count * es := by
          simp [MOp.run, commOp, ho]
        rw [this]
        simp only [sumCount, List.map_cons, List.sum_cons, Nat.add_mul]
        omega
    · intro x hx
      rw [h5 x (fun g' hg' => hx g' (List.mem_cons_of_mem _ hg')), hrun x (hx g List.mem_cons_self)]

theorem readMem_slices (m m' : Nat → β) (es B : Nat) (G : List (CAct β)) : ∀ off,
    (∀ A g C, G = A ++ g :: C → ∀ t < g.count * es, m (B + (off + sumCount A) * es + t) = m' (g.src + t)) →
    readMem m (B + off * es) (sumCount G * es) = G.flatMap (fun g => readMem m' g.src (g.count * es)) := by
  induction G with
  | nil => intro off _; simp [sumCount, readMem]
  | cons g G ih =>
    intro off h
    have hs : sumCount (g :: G) = g.count + sumCount G := by simp [sumCount]
    rw [hs, Nat.add_mul, readMem_append, List.flatMap_cons]
    congr 1
    · apply readMem_congr
      intro t ht
      have := h [] g G rfl t ht
      simpa [sumCount] using this
    · rw [← ih (off + g.count)]
      · rw [Nat.add_mul, Nat.add_assoc]
      · intro A g' C hG t ht
        have := h (g :: A) g' C (by rw [hG]; rfl) t ht
        rw [← this]
        have : sumCount (g :: A) = g.count + sumCount A := by simp [sumCount]
        rw [this, Nat.add_assoc off]

/-- Operation of action `g` of a group with key `k`. -/
def gop (e : CEnv) (inp : CKey → Nat → β) (k : CKey) (g : CAct β) : MOp CKey β :=
  commOp inp k (e.isIn k) (e.isOut k) g.src g.dst (g.count * e.elemsize)

/-- Part of the temporary buffer used for elements `a … b`. -/
def Slice (e : CEnv) (B a b : Nat) (x : Nat) : Prop := B + a * e.elemsize ≤ x ∧ x < B + b * e.elemsize

def opsOf (e : CEnv) (inp : CKey → Nat → β) (B : Nat) (l : List (Nat × CItem β)) : List (MOp CKey β) :=
  l.flatMap (fun y => y.2.ops e inp B)

theorem block_spec (e : CEnv) (inp : CKey → Nat → β) (B r : Nat) (k : CKey) (off : Nat) (G : List (CAct β))
    (hG : G.Pairwise (fun a b => MemIndep (gop e inp k a) (gop e inp k b)))
    (T : Nat → Prop) (hslice : ∀ x, Slice e B off (off + sumCount G) x → T x)
    (hT : ∀ g ∈ G, ∀ x, T x → ¬ (gop e inp k g).R x ∧ (gop e inp k g).W x = false)
    (s s' : MSt CKey β) (h : SameOutside T s s') :
    SameOutside T (runOps (G.map (gop e inp k)) s) (runOps (opsOf e inp B (emitGroup e r k off G)) s') := by
  obtain ⟨ho, hp, hm⟩ := h
  obtain ⟨g1, g2, g3, g4, g5⟩ := comms_spec inp k (e.isIn k) (e.isOut k) e.elemsize G hG s _ rfl
  change _ ∧ _ ∧ _
  generalize hu : runOps (G.map (gop e inp k)) s = u
  have hu' : runOps (G.map (fun g => commOp inp k (e.isIn k) (e.isOut k) g.src g.dst (g.count * e.elemsize))) s = u := hu
  rw [hu'] at g1 g2 g3 g4 g5
  -- entry belonging to an action
  have hent : ∀ (ptr : CAct β → Nat) A g C, G = A ++ g :: C →
      ({ ptr := ptr g, bytes := g.count * e.elemsize, offset := (off + sumCount A) * e.elemsize } : CEntry) ∈ entries e.elemsize ptr off G := by
    intro ptr A g C hG
    rw [hG, entries_append, entries]
    exact List.mem_append_right _ List.mem_cons_self
  have hsl : ∀ (ptr : CAct β → Nat), ∀ c ∈ entries e.elemsize ptr off G, ∀ x, B + c.offset ≤ x → x < B + c.offset + c.bytes →
      Slice e B off (off + sumCount G) x := by
    intro ptr c hc x h1 h2
    obtain ⟨a1, a2, _⟩ := entries_mem e.elemsize ptr G off c hc
    constructor <;> omega
  -- copies to the buffer
  obtain ⟨s1, hs1, a1, a2, a3, a4⟩ : ∃ s1, runOps (opsOf e inp B (if e.isIn k then [(3 * r, CItem.copyTo (entries e.elemsize CAct.src off G))] else [])) s' = s1 ∧
      s1.pos = s'.pos ∧ s1.out = s'.out ∧ (∀ x, ¬ Slice e B off (off + sumCount G) x → s1.mem x = s'.mem x) ∧
      (e.isIn k = true → ∀ A g C, G = A ++ g :: C → ∀ t < g.count * e.elemsize,
        s1.mem (B + (off + sumCount A) * e.elemsize + t) = s'.mem (g.src + t)) := by
    refine ⟨_, rfl, ?_⟩
    by_cases ci : e.isIn k = true
    · rw [if_pos ci]
      simp only [opsOf, List.flatMap_cons, List.flatMap_nil, List.append_nil, CItem.ops]
      have hk := runOps_nokey (l := (entries e.elemsize CAct.src off G).map (fun c => (copyOp c.ptr (B + c.offset) c.bytes : MOp CKey β)))
        (by intro o ho; obtain ⟨c, _, rfl⟩ := List.mem_map.1 ho; rfl) s'
      refine ⟨hk.1, hk.2, ?_, ?_⟩
      · intro x hx
        apply runOps_nowrite
        intro o ho
        obtain ⟨c, hc, rfl⟩ := List.mem_map.1 ho
        show decide _ = false
        simp only [decide_eq_false_iff_not]
        rintro ⟨h1, h2⟩
        exact hx (hsl _ c hc x h1 h2)
      · intro _ A g C hGe t ht
        have key := copies_spec ((entries e.elemsize CAct.src off G).map (fun c => (⟨c.ptr, B + c.offset, c.bytes⟩ : Cp))) (by
          rw [List.pairwise_map]
          have hall : (entries e.elemsize CAct.src off G).Pairwise (fun c d => c ∈ entries e.elemsize CAct.src off G ∧ d ∈ entries e.elemsize CAct.src off G) :=
            List.pairwise_of_forall_mem_list (fun a ha b hb => ⟨ha, hb⟩)
          refine ((entries_pairwise e.elemsize CAct.src G off).and hall).imp ?_
          rintro c d ⟨hcd, hc, hd⟩ x hx1 hx2
          simp only at hx1 hx2
          constructor
          · rintro ⟨h1, h2⟩
            obtain ⟨_, _, a, ha, e1, e2⟩ := entries_mem _ _ _ _ d hd
            have := (hT a ha x (hslice x (hsl _ c hc x hx1 hx2))).1
            apply this
            simp only at h1 h2
            refine ⟨ci, ?_, ?_⟩
            · rw [← e1]; exact h1
            · rw [← e1, ← e2]; exact h2
          · simp only; omega) s'
        rw [List.map_map] at key
        exact key _ (List.mem_map_of_mem (hent CAct.src A g C hGe)) t ht
    · rw [if_neg ci]
      exact ⟨rfl, rfl, fun _ _ => rfl, fun h => absurd h ci⟩
  -- communication
  obtain ⟨s2, hs2⟩ : ∃ s2, (commOp inp k (e.isIn k) (e.isOut k) (B + off * e.elemsize) (B + off * e.elemsize) (sumCount G * e.elemsize)).run s1 = s2 := ⟨_, rfl⟩
  have b1 : s2.out k = s'.out k ++ if e.isIn k then G.flatMap (fun g => readMem s'.mem g.src (g.count * e.elemsize)) else [] := by
    rw [← hs2, ← a2]
    have e0 : ((commOp inp k (e.isIn k) (e.isOut k) (B + off * e.elemsize) (B + off * e.elemsize) (sumCount G * e.elemsize)).run s1).out k =
        s1.out k ++ if e.isIn k then readMem s1.mem (B + off * e.elemsize) (sumCount G * e.elemsize) else [] := by
      simp [MOp.run, commOp]
    rw [e0]
    by_cases ci : e.isIn k = true
    · rw [if_pos ci, if_pos ci, readMem_slices s1.mem s'.mem e.elemsize B G off (a4 ci)]
    · rw [if_neg ci, if_neg ci]
  have b2 : ∀ k', k' ≠ k → s2.out k' = s'.out k' ∧ s2.pos k' = s'.pos k' := by
    intro k' hk'
    rw [← hs2, ← a1, ← a2]
    simp [MOp.run, commOp, Ne.symm hk']
  have b3 : s2.pos k = s'.pos k + if e.isOut k then sumCount G * e.elemsize else 0 := by
    rw [← hs2, ← a1]
    simp [MOp.run, commOp]
  have b4 : ∀ x, ¬ Slice e B off (off + sumCount G) x → s2.mem x = s'.mem x := by
    intro x hx
    rw [← a3 x hx, ← hs2, run_mem, if_neg]
    intro hw
    apply hx
    simp only [commOp, Bool.and_eq_true, decide_eq_true_eq] at hw
    refine ⟨hw.2.1, ?_⟩
    rw [Nat.add_mul]; omega
  have b5 : e.isOut k = true → ∀ A g C, G = A ++ g :: C → ∀ t < g.count * e.elemsize,
      s2.mem (B + (off + sumCount A) * e.elemsize + t) = inp k (s'.pos k + sumCount A * e.elemsize + t) := by
    intro co A g C hGe t ht
    have hle : sumCount A * e.elemsize + t < sumCount G * e.elemsize := by
      have : sumCount G = sumCount A + (g.count + sumCount C) := by rw [hGe]; simp [sumCount]
      rw [this, Nat.add_mul, Nat.add_mul]; omega
    rw [← hs2, run_mem, if_pos]
    · simp only [commOp, MOp.posOf, Option.map_some, Option.getD_some, a1, Nat.add_mul]
      congr 1; omega
    · simp only [commOp, Bool.and_eq_true, decide_eq_true_eq]
      rw [Nat.add_mul]
      exact ⟨co, by omega, by omega⟩
  -- copies from the buffer
  obtain ⟨s3, hs3, c1, c2, c3, c4⟩ : ∃ s3, runOps (opsOf e inp B (if e.isOut k then [(3 * r + 2, CItem.copyFrom (entries e.elemsize CAct.dst off G))] else [])) s2 = s3 ∧
      s3.pos = s2.pos ∧ s3.out = s2.out ∧
      (∀ x, (∀ g ∈ G, ¬ (e.isOut k = true ∧ g.dst ≤ x ∧ x < g.dst + g.count * e.elemsize)) → s3.mem x = s2.mem x) ∧
      (e.isOut k = true → ∀ A g C, G = A ++ g :: C → ∀ t < g.count * e.elemsize,
        s3.mem (g.dst + t) = s2.mem (B + (off + sumCount A) * e.elemsize + t)) := by
    refine ⟨_, rfl, ?_⟩
    by_cases co : e.isOut k = true
    · rw [if_pos co]
      simp only [opsOf, List.flatMap_cons, List.flatMap_nil, List.append_nil, CItem.ops]
      have hk := runOps_nokey (l := (entries e.elemsize CAct.dst off G).map (fun c => (copyOp (B + c.offset) c.ptr c.bytes : MOp CKey β)))
        (by intro o ho; obtain ⟨c, _, rfl⟩ := List.mem_map.1 ho; rfl) s2
      refine ⟨hk.1, hk.2, ?_, ?_⟩
      · intro x hx
        apply runOps_nowrite
        intro o ho
        obtain ⟨c, hc, rfl⟩ := List.mem_map.1 ho
        show decide _ = false
        simp only [decide_eq_false_iff_not]
        rintro ⟨h1, h2⟩
        obtain ⟨_, _, a, ha, e1, e2⟩ := entries_mem _ _ _ _ c hc
        exact hx a ha ⟨co, by omega, by omega⟩
      · intro _ A g C hGe t ht
        have key := copies_spec ((entries e.elemsize CAct.dst off G).map (fun c => (⟨B + c.offset, c.ptr, c.bytes⟩ : Cp))) (by
          rw [List.pairwise_map]
          have hall : (entries e.elemsize CAct.dst off G).Pairwise (fun c d => c ∈ entries e.elemsize CAct.dst off G ∧ d ∈ entries e.elemsize CAct.dst off G) :=
            List.pairwise_of_forall_mem_list (fun a ha b hb => ⟨ha, hb⟩)
          have hdis := entries_pairwise_of e.elemsize CAct.dst G (fun p n p' n' => ∀ x, p ≤ x → x < p + n → ¬ (p' ≤ x ∧ x < p' + n')) (hG.imp (by
            intro a b hab x h1 h2 h3
            have := (hab.1 x (by simp only [gop, commOp, Bool.and_eq_true, decide_eq_true_eq]; exact ⟨co, h1, h2⟩)).2
            simp only [gop, commOp, co, Bool.true_and, decide_eq_false_iff_not] at this
            exact this h3)) off
          refine (hdis.and hall).imp ?_
          rintro c d ⟨hcd, hc, hd⟩ x hx1 hx2
          simp only at hx1 hx2
          constructor
          · rintro ⟨h1, h2⟩
            simp only at h1 h2
            obtain ⟨_, _, a, ha, e1, e2⟩ := entries_mem _ _ _ _ c hc
            have := (hT a ha x (hslice x (hsl _ d hd x h1 h2))).2
            simp only [gop, commOp, co, Bool.true_and, decide_eq_false_iff_not] at this
            exact this ⟨by omega, by omega⟩
          · exact hcd x hx1 hx2) s2
        rw [List.map_map] at key
        exact key _ (List.mem_map_of_mem (hent CAct.dst A g C hGe)) t ht
    · rw [if_neg co]
      exact ⟨rfl, rfl, fun _ _ => rfl, fun h => absurd h co⟩
  have hfin : runOps (opsOf e inp B (emitGroup e r k off G)) s' = s3 := by
    unfold emitGroup
    unfold opsOf at hs1 hs3 ⊢
    rw [List.flatMap_append, List.flatMap_append, runOps_append, runOps_append, hs1]
    simp only [List.flatMap_cons, List.flatMap_nil, List.append_nil, CItem.ops]
    rw [show ∀ (o : MOp CKey β) t, runOps [o] t = o.run t from fun _ _ => rfl, hs2]
    exact hs3
  rw [hfin]
  have hread : e.isIn k = true → G.flatMap (fun g => readMem s.mem g.src (g.count * e.elemsize)) = G.flatMap (fun g => readMem s'.mem g.src (g.count * e.elemsize)) := by
    intro ci
    rw [List.flatMap_def, List.flatMap_def]
    congr 1
    apply List.map_congr_left
    intro g hg
    apply readMem_congr
    intro t ht
    apply hm
    intro hx
    exact (hT g hg _ hx).1 ⟨ci, by omega, by omega⟩
  refine ⟨?_, ?_, ?_⟩
  · funext k'
    rw [c2]
    by_cases hk : k' = k
    · subst hk
      rw [g1, b1, ho]
      by_cases ci : e.isIn k' = true
      · rw [if_pos ci, if_pos ci, hread ci]
      · rw [if_neg ci, if_neg ci]
    · rw [(g2 k' hk).1, (b2 k' hk).1, ho]
  · funext k'
    rw [c1]
    by_cases hk : k' = k
    · subst hk; rw [g3, b3, hp]
    · rw [(g2 k' hk).2, (b2 k' hk).2, hp]
  · intro x hx
    by_cases hex : ∃ g ∈ G, e.isOut k = true ∧ g.dst ≤ x ∧ x < g.dst + g.count * e.elemsize
    · obtain ⟨g, hg, co, h1, h2⟩ := hex
      obtain ⟨A, C, hGe⟩ := List.append_of_mem hg
      have ex : x = g.dst + (x - g.dst) := by omega
      rw [ex, g4 A g C hGe co _ (by omega), c4 co A g C hGe _ (by omega), b5 co A g C hGe _ (by omega), hp]
    · have hno : ∀ g ∈ G, ¬ (e.isOut k = true ∧ g.dst ≤ x ∧ x < g.dst + g.count * e.elemsize) := fun g hg hh => hex ⟨g, hg, hh⟩
      rw [g5 x hno, c3 x hno, b4 x (fun hs => hx (hslice x hs)), hm x hx]

/-! ### The whole sequence -/

/-- The action is not yet combined. -/
def unseen (seen : List (Nat × CKey)) (a : CAct β) : Bool :=
  match a.body with
  | .comm k _ _ _ => decide ((a.round, k) ∉ seen)
  | .other _ => true

def CAct.op (e : CEnv) (inp : CKey → Nat → β) (a : CAct β) : MOp CKey β := a.body.op e inp

/-- Both actions are communications with the same key. -/
def sameKey (a b : CAct β) : Prop :=
  ∃ k s d c s' d' c', a.body = .comm k s d c ∧ b.body = .comm k s' d' c'

/-- Actions which are never combined. -/
def CAct.isOth (a : CAct β) : Bool :=
  match a.body with
  | .comm _ _ _ _ => false
  | .other _ => true

def CItem.isOth : CItem β → Bool
  | .act (.other _) => true
  | _ => false

/-- Order and independence of actions in a sequence.  With `dep`, actions which are
never combined may depend on each other. -/
def SeqRel (dep : Bool) (e : CEnv) (inp : CKey → Nat → β) (a b : CAct β) : Prop :=
  a.round ≤ b.round ∧ (a.round = b.round → (MemIndep (a.op e inp) (b.op e inp) ∧
    (sameKey a b ∨ KeyIndep (a.op e inp) (b.op e inp))) ∨ (dep = true ∧ a.isOth = true ∧ b.isOth = true))

theorem isOth_comm {a : CAct β} {k : CKey} {s d c : Nat} (h : a.body = .comm k s d c) : a.isOth = false := by
  unfold CAct.isOth; rw [h]

theorem SeqRel.indep {dep : Bool} {e : CEnv} {inp : CKey → Nat → β} {a b : CAct β} (h : SeqRel dep e inp a b) (hr : a.round = b.round)
    (hn : dep = false ∨ a.isOth = false ∨ b.isOth = false) :
    MemIndep (a.op e inp) (b.op e inp) ∧ (sameKey a b ∨ KeyIndep (a.op e inp) (b.op e inp)) := by
  rcases h.2 hr with h | ⟨h1, h2, h3⟩
  · exact h
  · rw [h1, h2, h3] at hn; simp at hn

theorem same_iff {r : Nat} {k : CKey} {a : CAct β} : a.same r k = true ↔ a.round = r ∧ ∃ s d c, a.body = .comm k s d c := by
  unfold CAct.same
  cases h : a.body with
  | comm k' s d c =>
    simp only [decide_eq_true_eq]
    constructor
    · rintro ⟨h1, rfl⟩; exact ⟨h1, s, d, c, rfl⟩
    · rintro ⟨h1, _, _, _, h2⟩; injection h2 with h2; exact ⟨h1, h2⟩
  | other op => simp

theorem gop_eq {e : CEnv} {inp : CKey → Nat → β} {k : CKey} {a : CAct β} {s d c : Nat} (h : a.body = .comm k s d c) :
    a.op e inp = gop e inp k a := by
  unfold CAct.op gop CBody.op CAct.src CAct.dst CAct.count
  rw [h]

theorem op_key {e : CEnv} {inp : CKey → Nat → β} {k : CKey} {a : CAct β} {s d c : Nat} (h : a.body = .comm k s d c) :
    (a.op e inp).key = some k := by
  unfold CAct.op CBody.op
  rw [h]
  rfl

theorem combGo_le (e : CEnv) (l : List (CAct β)) : ∀ seen off, off ≤ (combGo e seen off l).2 := by
  induction l with
  | nil => intro seen off; exact Nat.le_refl _
  | cons a l ih =>
    intro seen off
    rw [combGo]
    split
    · exact ih _ _
    · split
      · exact ih _ _
      · simp only
        split
        · have := ih ((a.round, ‹CKey›) :: seen) (off + sumCount (a :: l.filter (CAct.same a.round ‹CKey›)))
          simp only; omega
        · exact ih _ _

theorem unseen_cons {seen : List (Nat × CKey)} {r : Nat} {k : CKey} (h : (r, k) ∉ seen) (l : List (CAct β)) :
    (l.filter (unseen seen)).filter (CAct.same r k) = l.filter (CAct.same r k) ∧
    (l.filter (unseen seen)).filter (fun a => !CAct.same r k a) = l.filter (unseen ((r, k) :: seen)) := by
  rw [List.filter_filter, List.filter_filter]
  constructor
  · apply List.filter_congr
    intro a _
    cases hs : a.same r k with
    | false => rfl
    | true =>
      obtain ⟨h1, s, d, c, h2⟩ := same_iff.1 hs
      simp [unseen, h2, h1, h]
  · apply List.filter_congr
    intro a _
    unfold unseen CAct.same
    cases a.body with
    | other op => rfl
    | comm k' s d c =>
      simp only [List.mem_cons, Prod.mk.injEq, not_or]
      by_cases c1 : a.round = r ∧ k' = k
      · simp [c1]
      · simp [c1]

theorem combGo_run {dep : Bool} (e : CEnv) (inp : CKey → Nat → β) (B : Nat) (T : Nat → Prop) (l : List (CAct β)) :
    ∀ seen off, l.Pairwise (SeqRel dep e inp) →
    (∀ a ∈ l, ∀ x, T x → ¬ (a.op e inp).R x ∧ (a.op e inp).W x = false) →
    (∀ x, Slice e B off (combGo e seen off l).2 x → T x) →
    ∀ s s', SameOutside T s s' →
    SameOutside T (runOps ((l.filter (unseen seen)).map (CAct.op e inp)) s) (runOps (opsOf e inp B (combGo e seen off l).1) s') := by
  induction l with
  | nil => intro seen off _ _ _ s s' h; exact h
  | cons a l ih =>
    intro seen off hp hT hS s s' h
    rw [List.pairwise_cons] at hp
    have hTl : ∀ b ∈ l, ∀ x, T x → ¬ (b.op e inp).R x ∧ (b.op e inp).W x = false :=
      fun b hb => hT b (List.mem_cons_of_mem _ hb)
    have hTa := hT a List.mem_cons_self
    cases hb : a.body with
    | other op =>
      have e1 : combGo e seen off (a :: l) = ((3 * a.round + 1, .act (.other op)) :: (combGo e seen off l).1, (combGo e seen off l).2) := by
        rw [combGo]; simp only [hb]
      rw [e1] at hS ⊢
      have e2 : (a :: l).filter (unseen seen) = a :: l.filter (unseen seen) := by
        rw [List.filter_cons, if_pos]; simp [unseen, hb]
      rw [e2, List.map_cons, runOps_cons, opsOf, List.flatMap_cons]
      simp only [CItem.ops, List.singleton_append, runOps_cons]
      apply ih seen off hp.2 hTl hS
      have : a.op e inp = CBody.op e inp (.other op) := by unfold CAct.op; rw [hb]
      rw [← this]
      exact h.run _ (fun x hx ht => (hTa x ht).1 hx)
    | comm k sr d c =>
      by_cases cs : (a.round, k) ∈ seen
      · have e1 : combGo e seen off (a :: l) = combGo e seen off l := by
          rw [combGo]; simp only [hb, if_pos cs]
        rw [e1] at hS ⊢
        have e2 : (a :: l).filter (unseen seen) = l.filter (unseen seen) := by
          rw [List.filter_cons, if_neg]; simp [unseen, hb, cs]
        rw [e2]
        exact ih seen off hp.2 hTl hS s s' h
      · have e2 : (a :: l).filter (unseen seen) = a :: l.filter (unseen seen) := by
          rw [List.filter_cons, if_pos]; simp [unseen, hb, cs]
        obtain ⟨f1, f2⟩ := unseen_cons cs l
        have e3 : ∀ t, runOps ((l.filter (unseen seen)).map (CAct.op e inp)) t =
            runOps ((l.filter (unseen ((a.round, k) :: seen))).map (CAct.op e inp)) (runOps ((l.filter (CAct.same a.round k)).map (CAct.op e inp)) t) := by
          intro t
          rw [run_filter (CAct.op e inp) (CAct.same a.round k), f1, f2]
          have hall : l.Pairwise (fun x y => x ∈ l ∧ y ∈ l) := List.pairwise_of_forall_mem_list (fun a ha b hb => ⟨ha, hb⟩)
          refine ((hp.2.and hall).sublist List.filter_sublist).imp ?_
          rintro x y ⟨hxy, hxl, hyl⟩ hx hy
          obtain ⟨y1, ys, yd, yc, y2⟩ := same_iff.1 hy
          have r1 := (hp.1 x hxl).1
          have r2 := hxy.1
          have hr : x.round = y.round := by omega
          obtain ⟨m1, m2⟩ := hxy.indep hr (Or.inr (Or.inr (isOth_comm y2)))
          refine ⟨m1, ?_⟩
          rcases m2 with ⟨k', s1, d1, c1, s2, d2, c2, q1, q2⟩ | m2
          · exfalso
            rw [y2] at q2
            injection q2 with q2
            have : x.same a.round k = true := same_iff.2 ⟨by omega, s1, d1, c1, by rw [q1, q2]⟩
            rw [this] at hx
            exact absurd hx (by simp)
          · exact m2
        have hG : ∀ g ∈ a :: l.filter (CAct.same a.round k), g ∈ a :: l ∧ ∃ s d c, g.body = .comm k s d c := by
          intro g hg
          rcases List.mem_cons.1 hg with rfl | hg
          · exact ⟨List.mem_cons_self, _, _, _, hb⟩
          · rw [List.mem_filter] at hg
            exact ⟨List.mem_cons_of_mem _ hg.1, (same_iff.1 hg.2).2⟩
        by_cases cl : (a :: l.filter (CAct.same a.round k)).length > 1
        · have e1 : combGo e seen off (a :: l) = (emitGroup e a.round k off (a :: l.filter (CAct.same a.round k)) ++
              (combGo e ((a.round, k) :: seen) (off + sumCount (a :: l.filter (CAct.same a.round k))) l).1,
              (combGo e ((a.round, k) :: seen) (off + sumCount (a :: l.filter (CAct.same a.round k))) l).2) := by
            rw [combGo]; simp only [hb, if_neg cs, if_pos cl]
          rw [e1] at hS ⊢
          have hle := combGo_le e l ((a.round, k) :: seen) (off + sumCount (a :: l.filter (CAct.same a.round k)))
          have hmap : (a :: l.filter (CAct.same a.round k)).map (CAct.op e inp) = (a :: l.filter (CAct.same a.round k)).map (gop e inp k) := by
            apply List.map_congr_left
            intro g hg
            obtain ⟨_, s, d, c, hgb⟩ := hG g hg
            exact gop_eq hgb
          rw [e2, List.map_cons, runOps_cons, e3, ← runOps_cons, ← List.map_cons, hmap, opsOf, List.flatMap_append, runOps_append]
          apply ih _ _ hp.2 hTl
          · intro x hx
            exact hS x ⟨Nat.le_trans (Nat.add_le_add_left (Nat.mul_le_mul_right _ (by omega)) _) hx.1, hx.2⟩
          · apply block_spec e inp B a.round k off _ _ T
            · intro x hx
              refine hS x ⟨hx.1, Nat.lt_of_lt_of_le hx.2 (Nat.add_le_add_left (Nat.mul_le_mul_right _ ?_) _)⟩
              simpa using hle
            · intro g hg x hx
              obtain ⟨hgl, s, d, c, hgb⟩ := hG g hg
              rw [← gop_eq hgb]
              exact hT g hgl x hx
            · exact h
            · have hsub : (a :: l.filter (CAct.same a.round k)).Sublist (a :: l) := List.filter_sublist.cons_cons a
              have hpw : (a :: l.filter (CAct.same a.round k)).Pairwise (SeqRel dep e inp) := (List.pairwise_cons.2 hp).sublist hsub
              have hall : (a :: l.filter (CAct.same a.round k)).Pairwise (fun x y => x ∈ a :: l.filter (CAct.same a.round k) ∧ y ∈ a :: l.filter (CAct.same a.round k)) :=
                List.pairwise_of_forall_mem_list (fun a ha b hb => ⟨ha, hb⟩)
              refine (hpw.and hall).imp ?_
              rintro x y ⟨hxy, hx, hy⟩
              obtain ⟨_, s1, d1, c1, q1⟩ := hG x hx
              obtain ⟨_, s2, d2, c2, q2⟩ := hG y hy
              have rr : ∀ z ∈ a :: l.filter (CAct.same a.round k), z.round = a.round := by
                intro z hz
                rcases List.mem_cons.1 hz with rfl | hz
                · rfl
                · exact (same_iff.1 (List.mem_filter.1 hz).2).1
              rw [← gop_eq q1, ← gop_eq q2]
              exact (hxy.indep (by rw [rr x hx, rr y hy]) (Or.inr (Or.inl (isOth_comm q1)))).1
        · have hnil : l.filter (CAct.same a.round k) = [] := by
            apply List.length_eq_zero_iff.1
            simp only [List.length_cons] at cl
            omega
          have e1 : combGo e seen off (a :: l) = ((3 * a.round + 1, .act (.comm k sr d c)) ::
              (combGo e ((a.round, k) :: seen) off l).1, (combGo e ((a.round, k) :: seen) off l).2) := by
            rw [combGo]; simp only [hb, if_neg cs, if_neg cl]
          rw [e1] at hS ⊢
          rw [e2, List.map_cons, runOps_cons, e3, hnil, opsOf, List.flatMap_cons]
          simp only [CItem.ops, List.singleton_append, runOps_cons, List.map_nil]
          apply ih _ off hp.2 hTl hS
          have : a.op e inp = CBody.op e inp (.comm k sr d c) := by unfold CAct.op; rw [hb]
          rw [← this]
          exact h.run _ (fun x hx ht => (hTa x ht).1 hx)

/-- The new action `y` belongs to round `r`, uses only the part `lo … hi` of the
buffer, and otherwise only what actions in `S` use. -/
def Fits (e : CEnv) (inp : CKey → Nat → β) (B lo hi : Nat) (S : CAct β → Prop) (r : Nat) (y : Nat × CItem β) : Prop :=
  3 * r ≤ y.1 ∧ y.1 ≤ 3 * r + 2 ∧ ∀ o ∈ y.2.ops e inp B,
    (∀ x, o.R x → Slice e B lo hi x ∨ ∃ h, S h ∧ (h.op e inp).R x) ∧
    (∀ x, o.W x = true → Slice e B lo hi x ∨ ∃ h, S h ∧ (h.op e inp).W x = true) ∧
    (∀ k, o.key = some k → ∃ h, S h ∧ (h.op e inp).key = some k)

theorem Fits.mono {e : CEnv} {inp : CKey → Nat → β} {B lo hi lo' hi' : Nat} {S S' : CAct β → Prop} {r : Nat} {y : Nat × CItem β}
    (h : Fits e inp B lo hi S r y) (h1 : lo' ≤ lo) (h2 : hi ≤ hi') (h3 : ∀ a, S a → S' a) : Fits e inp B lo' hi' S' r y := by
  have hs : ∀ x, Slice e B lo hi x → Slice e B lo' hi' x := by
    intro x hx
    exact ⟨Nat.le_trans (Nat.add_le_add_left (Nat.mul_le_mul_right _ h1) _) hx.1,
      Nat.lt_of_lt_of_le hx.2 (Nat.add_le_add_left (Nat.mul_le_mul_right _ h2) _)⟩
  refine ⟨h.1, h.2.1, fun o ho => ?_⟩
  obtain ⟨a, b, c⟩ := h.2.2 o ho
  refine ⟨fun x hx => ?_, fun x hx => ?_, fun k hk => ?_⟩
  · rcases a x hx with q | ⟨g, q1, q2⟩
    · exact Or.inl (hs x q)
    · exact Or.inr ⟨g, h3 g q1, q2⟩
  · rcases b x hx with q | ⟨g, q1, q2⟩
    · exact Or.inl (hs x q)
    · exact Or.inr ⟨g, h3 g q1, q2⟩
  · obtain ⟨g, q1, q2⟩ := c k hk
    exact ⟨g, h3 g q1, q2⟩

theorem fits_act {e : CEnv} {inp : CKey → Nat → β} {B lo hi : Nat} (a : CAct β) :
    Fits e inp B lo hi (· = a) a.round (3 * a.round + 1, .act a.body) := by
  refine ⟨by simp, by simp, ?_⟩
  intro o ho
  simp only [CItem.ops, List.mem_singleton] at ho
  subst ho
  exact ⟨fun x hx => Or.inr ⟨a, rfl, hx⟩, fun x hx => Or.inr ⟨a, rfl, hx⟩, fun k hk => ⟨a, rfl, hk⟩⟩

theorem fits_emit {e : CEnv} {inp : CKey → Nat → β} {B off r : Nat} {k : CKey} {G : List (CAct β)} (hne : G ≠ [])
    (hG : ∀ g ∈ G, ∃ s d c, g.body = .comm k s d c) (y : Nat × CItem β) (hy : y ∈ emitGroup e r k off G) :
    Fits e inp B off (off + sumCount G) (· ∈ G) r y := by
  have hsl : ∀ (ptr : CAct β → Nat), ∀ c ∈ entries e.elemsize ptr off G, ∀ x, B + c.offset ≤ x → x < B + c.offset + c.bytes →
      Slice e B off (off + sumCount G) x := by
    intro ptr c hc x h1 h2
    obtain ⟨a1, a2, _⟩ := entries_mem e.elemsize ptr G off c hc
    constructor <;> omega
  rw [emitGroup, List.mem_append, List.mem_append] at hy
  rcases hy with (hy | hy) | hy
  · split at hy
    · rename_i ci
      rw [List.mem_singleton] at hy
      subst hy
      refine ⟨Nat.le_refl _, by simp, ?_⟩
      intro o ho
      simp only [CItem.ops] at ho
      obtain ⟨c, hc, rfl⟩ := List.mem_map.1 ho
      refine ⟨fun x hx => Or.inr ?_, fun x hx => Or.inl ?_, fun k hk => ?_⟩
      · obtain ⟨_, _, a, ha, e1, e2⟩ := entries_mem _ _ _ _ c hc
        obtain ⟨s, d, cc, q⟩ := hG a ha
        refine ⟨a, ha, ?_⟩
        rw [gop_eq q]
        simp only [copyOp] at hx
        exact ⟨ci, by omega, by omega⟩
      · simp only [copyOp, decide_eq_true_eq] at hx
        exact hsl _ c hc x hx.1 hx.2
      · simp [copyOp] at hk
    · simp at hy
  · rw [List.mem_singleton] at hy
    subst hy
    refine ⟨by simp, by simp, ?_⟩
    intro o ho
    simp only [CItem.ops, List.mem_singleton] at ho
    subst ho
    have hs : ∀ x, B + off * e.elemsize ≤ x → x < B + off * e.elemsize + sumCount G * e.elemsize → Slice e B off (off + sumCount G) x := by
      intro x h1 h2
      refine ⟨h1, ?_⟩
      rw [Nat.add_mul]; omega
    refine ⟨fun x hx => Or.inl (hs x hx.2.1 hx.2.2), fun x hx => Or.inl ?_, fun k' hk => ?_⟩
    · simp only [commOp, Bool.and_eq_true, decide_eq_true_eq] at hx
      exact hs x hx.2.1 hx.2.2
    · cases G with
      | nil => exact absurd rfl hne
      | cons g G =>
        obtain ⟨s, d, c, q⟩ := hG g List.mem_cons_self
        refine ⟨g, List.mem_cons_self, ?_⟩
        rw [op_key q]
        exact hk
  · split at hy
    · rename_i co
      rw [List.mem_singleton] at hy
      subst hy
      refine ⟨by simp, Nat.le_refl _, ?_⟩
      intro o ho
      simp only [CItem.ops] at ho
      obtain ⟨c, hc, rfl⟩ := List.mem_map.1 ho
      refine ⟨fun x hx => Or.inl ?_, fun x hx => Or.inr ?_, fun k hk => ?_⟩
      · simp only [copyOp] at hx
        exact hsl _ c hc x hx.1 hx.2
      · obtain ⟨_, _, a, ha, e1, e2⟩ := entries_mem _ _ _ _ c hc
        obtain ⟨s, d, cc, q⟩ := hG a ha
        refine ⟨a, ha, ?_⟩
        rw [gop_eq q]
        simp only [copyOp, decide_eq_true_eq] at hx
        simp only [gop, commOp, Bool.and_eq_true, decide_eq_true_eq]
        exact ⟨co, by omega, by omega⟩
      · simp [copyOp] at hk
    · simp at hy

theorem Fits.indep {e : CEnv} {inp : CKey → Nat → β} {B lo hi lo' hi' : Nat} {S S' : CAct β → Prop} {r r' : Nat} {y y' : Nat × CItem β}
    (h : Fits e inp B lo hi S r y) (h' : Fits e inp B lo' hi' S' r' y') (hle : hi ≤ lo')
    (hind : ∀ g g', S g → S' g' → Indep (g.op e inp) (g'.op e inp))
    (hT : ∀ g, S g → ∀ x, Slice e B lo' hi' x → ¬ (g.op e inp).R x ∧ (g.op e inp).W x = false)
    (hT' : ∀ g, S' g → ∀ x, Slice e B lo hi x → ¬ (g.op e inp).R x ∧ (g.op e inp).W x = false) :
    ∀ o ∈ y.2.ops e inp B, ∀ o' ∈ y'.2.ops e inp B, Indep o o' := by
  intro o ho o' ho'
  obtain ⟨a, b, c⟩ := h.2.2 o ho
  obtain ⟨a', b', c'⟩ := h'.2.2 o' ho'
  have hdis : ∀ x, Slice e B lo hi x → ¬ Slice e B lo' hi' x := by
    intro x h1 h2
    have h3 := h1.2
    have h4 := h2.1
    have : hi * e.elemsize ≤ lo' * e.elemsize := Nat.mul_le_mul_right _ hle
    omega
  have hbool : ∀ {p : Bool}, (p = true → False) → p = false := by
    intro p h; cases p with
    | false => rfl
    | true => exact absurd rfl h
  refine ⟨⟨fun x hx => ⟨fun hr => ?_, hbool fun hw => ?_⟩, fun x hx hr => ?_⟩, fun k hk hk' => ?_⟩
  · rcases b x hx with q | ⟨g, q1, q2⟩ <;> rcases a' x hr with p | ⟨g', p1, p2⟩
    · exact hdis x q p
    · exact (hT' g' p1 x q).1 p2
    · have := (hT g q1 x p).2; rw [q2] at this; exact absurd this (by simp)
    · exact ((hind g g' q1 p1).1.1 x q2).1 p2
  · rcases b x hx with q | ⟨g, q1, q2⟩ <;> rcases b' x hw with p | ⟨g', p1, p2⟩
    · exact hdis x q p
    · have := (hT' g' p1 x q).2; rw [p2] at this; exact absurd this (by simp)
    · have := (hT g q1 x p).2; rw [q2] at this; exact absurd this (by simp)
    · have := ((hind g g' q1 p1).1.1 x q2).2; rw [p2] at this; exact absurd this (by simp)
  · rcases b' x hx with q | ⟨g, q1, q2⟩ <;> rcases a x hr with p | ⟨g', p1, p2⟩
    · exact hdis x p q
    · exact (hT g' p1 x q).1 p2
    · have := (hT' g q1 x p).2; rw [q2] at this; exact absurd this (by simp)
    · exact (hind g' g p1 q1).1.2 x q2 p2
  · obtain ⟨g, q1, q2⟩ := c k hk
    obtain ⟨g', p1, p2⟩ := c' k hk'
    exact (hind g g' q1 p1).2 k q2 p2

theorem emit_isOth {e : CEnv} {r : Nat} {k : CKey} {off : Nat} {G : List (CAct β)} {y : Nat × CItem β} (hy : y ∈ emitGroup e r k off G) :
    y.2.isOth = false := by
  rw [emitGroup, List.mem_append, List.mem_append] at hy
  rcases hy with (hy | hy) | hy
  · split at hy
    · rw [List.mem_singleton] at hy; subst hy; rfl
    · simp at hy
  · rw [List.mem_singleton] at hy; subst hy; rfl
  · split at hy
    · rw [List.mem_singleton] at hy; subst hy; rfl
    · simp at hy

theorem combGo_othRound (e : CEnv) (l : List (CAct β)) : ∀ seen off, ∀ y ∈ (combGo e seen off l).1, y.2.isOth = true →
    ∀ r, 3 * r ≤ y.1 → y.1 ≤ 3 * r + 2 → y.1 = 3 * r + 1 := by
  induction l with
  | nil => intro seen off y hy; simp [combGo] at hy
  | cons a l ih =>
    intro seen off y hy ho r h1 h2
    cases hb : a.body with
    | other op =>
      rw [combGo] at hy; simp only [hb] at hy
      rcases List.mem_cons.1 hy with rfl | hy
      · simp only at *; omega
      · exact ih _ _ y hy ho r h1 h2
    | comm k sr d c =>
      rw [combGo] at hy; simp only [hb] at hy
      split at hy
      · exact ih _ _ y hy ho r h1 h2
      · split at hy
        · rcases List.mem_append.1 hy with hy | hy
          · rw [emit_isOth hy] at ho; cases ho
          · exact ih _ _ y hy ho r h1 h2
        · rcases List.mem_cons.1 hy with rfl | hy
          · cases ho
          · exact ih _ _ y hy ho r h1 h2

theorem combGo_fits (e : CEnv) (inp : CKey → Nat → β) (B : Nat) (l : List (CAct β)) : ∀ seen off,
    ∀ y ∈ (combGo e seen off l).1, ∃ r, Fits e inp B off (combGo e seen off l).2 (fun a => a ∈ l ∧ unseen seen a = true ∧ a.round = r ∧ a.isOth = y.2.isOth) r y ∧
      ∃ a ∈ l, a.round = r := by
  induction l with
  | nil => intro seen off y hy; simp [combGo] at hy
  | cons a l ih =>
    intro seen off y hy
    cases hb : a.body with
    | other op =>
      have e1 : combGo e seen off (a :: l) = ((3 * a.round + 1, .act (.other op)) :: (combGo e seen off l).1, (combGo e seen off l).2) := by
        rw [combGo]; simp only [hb]
      rw [e1] at hy ⊢
      rcases List.mem_cons.1 hy with rfl | hy
      · refine ⟨a.round, ?_, a, List.mem_cons_self, rfl⟩
        rw [← hb]
        refine (fits_act a).mono (Nat.le_refl _) (Nat.le_refl _) ?_
        rintro b rfl
        exact ⟨List.mem_cons_self, by simp [unseen, hb], rfl, by simp [CAct.isOth, CItem.isOth, hb]⟩
      · obtain ⟨r, h, b0, hb0, hr0⟩ := ih seen off y hy
        exact ⟨r, h.mono (Nat.le_refl _) (Nat.le_refl _) (fun b hb => ⟨List.mem_cons_of_mem _ hb.1, hb.2⟩), b0, List.mem_cons_of_mem _ hb0, hr0⟩
    | comm k sr d c =>
      by_cases cs : (a.round, k) ∈ seen
      · have e1 : combGo e seen off (a :: l) = combGo e seen off l := by
          rw [combGo]; simp only [hb, if_pos cs]
        rw [e1] at hy ⊢
        obtain ⟨r, h, b0, hb0, hr0⟩ := ih seen off y hy
        exact ⟨r, h.mono (Nat.le_refl _) (Nat.le_refl _) (fun b hb => ⟨List.mem_cons_of_mem _ hb.1, hb.2⟩), b0, List.mem_cons_of_mem _ hb0, hr0⟩
      · have hun : ∀ b : CAct β, unseen ((a.round, k) :: seen) b = true → unseen seen b = true := by
          intro b hb
          unfold unseen at *
          cases hbb : b.body with
          | other _ => rfl
          | comm k' _ _ _ => simp [hbb] at hb ⊢; exact hb.2
        by_cases cl : (a :: l.filter (CAct.same a.round k)).length > 1
        · have e1 : combGo e seen off (a :: l) = (emitGroup e a.round k off (a :: l.filter (CAct.same a.round k)) ++
              (combGo e ((a.round, k) :: seen) (off + sumCount (a :: l.filter (CAct.same a.round k))) l).1,
              (combGo e ((a.round, k) :: seen) (off + sumCount (a :: l.filter (CAct.same a.round k))) l).2) := by
            rw [combGo]; simp only [hb, if_neg cs, if_pos cl]
          have hle := combGo_le e l ((a.round, k) :: seen) (off + sumCount (a :: l.filter (CAct.same a.round k)))
          rw [e1] at hy ⊢
          rcases List.mem_append.1 hy with hy | hy
          · refine ⟨a.round, (fits_emit (by simp) ?_ y hy).mono (Nat.le_refl _) hle ?_, a, List.mem_cons_self, rfl⟩
            · intro g hg
              rcases List.mem_cons.1 hg with rfl | hg
              · exact ⟨_, _, _, hb⟩
              · exact (same_iff.1 (List.mem_filter.1 hg).2).2
            · intro g hg
              rcases List.mem_cons.1 hg with rfl | hg
              · exact ⟨List.mem_cons_self, by simp [unseen, hb, cs], rfl, by rw [isOth_comm hb, emit_isOth hy]⟩
              · rw [List.mem_filter] at hg
                obtain ⟨h1, s, d, c, h2⟩ := same_iff.1 hg.2
                exact ⟨List.mem_cons_of_mem _ hg.1, by simp [unseen, h2, h1, cs], h1, by rw [isOth_comm h2, emit_isOth hy]⟩
          · obtain ⟨r, h, b0, hb0, hr0⟩ := ih _ _ y hy
            exact ⟨r, h.mono (by omega) (Nat.le_refl _) (fun b hb => ⟨List.mem_cons_of_mem _ hb.1, hun b hb.2.1, hb.2.2⟩), b0, List.mem_cons_of_mem _ hb0, hr0⟩
        · have e1 : combGo e seen off (a :: l) = ((3 * a.round + 1, .act (.comm k sr d c)) ::
              (combGo e ((a.round, k) :: seen) off l).1, (combGo e ((a.round, k) :: seen) off l).2) := by
            rw [combGo]; simp only [hb, if_neg cs, if_neg cl]
          rw [e1] at hy ⊢
          rcases List.mem_cons.1 hy with rfl | hy
          · refine ⟨a.round, ?_, a, List.mem_cons_self, rfl⟩
            rw [← hb]
            refine (fits_act a).mono (Nat.le_refl _) (Nat.le_refl _) ?_
            rintro b rfl
            exact ⟨List.mem_cons_self, by simp [unseen, hb, cs], rfl, by simp [CAct.isOth, CItem.isOth, hb]⟩
          · obtain ⟨r, h, b0, hb0, hr0⟩ := ih _ _ y hy
            exact ⟨r, h.mono (Nat.le_refl _) (Nat.le_refl _) (fun b hb => ⟨List.mem_cons_of_mem _ hb.1, hun b hb.2.1, hb.2.2⟩), b0, List.mem_cons_of_mem _ hb0, hr0⟩

theorem combGo_pairwise {dep : Bool} (e : CEnv) (inp : CKey → Nat → β) (B : Nat) (T : Nat → Prop) (l : List (CAct β)) :
    ∀ seen off, l.Pairwise (SeqRel dep e inp) →
    (∀ a ∈ l, ∀ x, T x → ¬ (a.op e inp).R x ∧ (a.op e inp).W x = false) →
    (∀ x, Slice e B off (combGo e seen off l).2 x → T x) →
    (combGo e seen off l).1.Pairwise (fun y z => y.1 < z.1 ∨ (∀ o ∈ y.2.ops e inp B, ∀ o' ∈ z.2.ops e inp B, Indep o o') ∨
      (dep = true ∧ y.1 = z.1 ∧ y.2.isOth = true ∧ z.2.isOth = true)) := by
  induction l with
  | nil => intro seen off _ _ _; exact List.Pairwise.nil
  | cons a l ih =>
    intro seen off hp hT hS
    rw [List.pairwise_cons] at hp
    have hTl : ∀ b ∈ l, ∀ x, T x → ¬ (b.op e inp).R x ∧ (b.op e inp).W x = false :=
      fun b hb => hT b (List.mem_cons_of_mem _ hb)
    have hTa := hT a List.mem_cons_self
    have cross : ∀ (S : CAct β → Prop) (seen' : List (Nat × CKey)) (lo hi : Nat) (y z : Nat × CItem β),
        Fits e inp B lo hi S a.round y → (y.2.isOth = true → y.1 = 3 * a.round + 1) → z ∈ (combGo e seen' hi l).1 → (∀ x, Slice e B lo (combGo e seen' hi l).2 x → T x) → lo ≤ hi →
        (∀ g, S g → g ∈ a :: l) →
        (∀ g g', S g → g' ∈ l → unseen seen' g' = true → g'.round = a.round → (dep = false ∨ y.2.isOth = false ∨ g'.isOth = false) →
          Indep (g.op e inp) (g'.op e inp)) →
        y.1 < z.1 ∨ (∀ o ∈ y.2.ops e inp B, ∀ o' ∈ z.2.ops e inp B, Indep o o') ∨
          (dep = true ∧ y.1 = z.1 ∧ y.2.isOth = true ∧ z.2.isOth = true) := by
      intro S seen' lo hi y z hy hyo hz hsl h1 hSl hind
      obtain ⟨r, hzf, b0, hb0, hr0⟩ := combGo_fits e inp B l seen' hi z hz
      have h2 := combGo_le e l seen' hi
      have hr' : a.round ≤ r := by rw [← hr0]; exact (hp.1 b0 hb0).1
      rcases Nat.lt_or_eq_of_le hr' with hlt | heq
      · left
        have := hy.2.1
        have := hzf.1
        omega
      · right
        by_cases cd : dep = true ∧ y.2.isOth = true ∧ z.2.isOth = true
        · refine Or.inr ⟨cd.1, ?_, cd.2⟩
          rw [hyo cd.2.1, combGo_othRound e l seen' hi z hz cd.2.2 r (by have := hzf.1; omega) (by have := hzf.2.1; omega), heq]
        left
        refine hy.indep hzf (Nat.le_refl _) (fun g g' hg hg' => hind g g' hg hg'.1 hg'.2.1 (by omega) ?_) ?_ ?_
        · rw [hg'.2.2.2]
          revert cd
          cases dep <;> cases y.2.isOth <;> cases z.2.isOth <;> simp
        · intro g hg x hx
          exact hT g (hSl g hg) x (hsl x ⟨Nat.le_trans (Nat.add_le_add_left (Nat.mul_le_mul_right _ h1) _) hx.1, hx.2⟩)
        · intro g hg x hx
          exact hTl g hg.1 x (hsl x ⟨hx.1, Nat.lt_of_lt_of_le hx.2 (Nat.add_le_add_left (Nat.mul_le_mul_right _ h2) _)⟩)
    cases hb : a.body with
    | other op =>
      have e1 : combGo e seen off (a :: l) = ((3 * a.round + 1, .act (.other op)) :: (combGo e seen off l).1, (combGo e seen off l).2) := by
        rw [combGo]; simp only [hb]
      rw [e1] at hS ⊢
      rw [List.pairwise_cons]
      refine ⟨fun z hz => ?_, ih seen off hp.2 hTl hS⟩
      rw [← hb]
      refine cross (· = a) seen off off _ z (fits_act a) (fun _ => rfl) hz hS (Nat.le_refl _) (by rintro g rfl; exact List.mem_cons_self) ?_
      rintro g g' rfl hg' _ hr hdep
      have hdep : dep = false ∨ g.isOth = false ∨ g'.isOth = false := by
        have : g.isOth = CItem.isOth (.act g.body) := by unfold CAct.isOth CItem.isOth; rw [hb]
        rw [this]; exact hdep
      obtain ⟨m1, m2⟩ := (hp.1 g' hg').indep hr.symm hdep
      refine ⟨m1, ?_⟩
      rcases m2 with ⟨k', s1, d1, c1, _, _, _, q1, _⟩ | m2
      · rw [hb] at q1; exact absurd q1 (by simp)
      · exact m2
    | comm k sr d c =>
      by_cases cs : (a.round, k) ∈ seen
      · have e1 : combGo e seen off (a :: l) = combGo e seen off l := by
          rw [combGo]; simp only [hb, if_pos cs]
        rw [e1] at hS ⊢
        exact ih seen off hp.2 hTl hS
      · -- other actions are independent of the group
        have hgrp : ∀ g g', g ∈ a :: l.filter (CAct.same a.round k) → g' ∈ l → unseen ((a.round, k) :: seen) g' = true → g'.round = a.round →
            Indep (g.op e inp) (g'.op e inp) := by
          intro g g' hg hg' hun hr
          have hgb : g.round = a.round ∧ (∃ s d c, g.body = .comm k s d c) ∧ g ∈ a :: l := by
            rcases List.mem_cons.1 hg with rfl | hg
            · exact ⟨rfl, ⟨_, _, _, hb⟩, List.mem_cons_self⟩
            · rw [List.mem_filter] at hg
              have := same_iff.1 hg.2
              exact ⟨this.1, this.2, List.mem_cons_of_mem _ hg.1⟩
          have hns : ∀ s d c, g'.body ≠ .comm k s d c := by
            intro s d c h
            simp [unseen, h, hr] at hun
          have hne : g ≠ g' := by
            rintro rfl
            obtain ⟨s, d, c, h⟩ := hgb.2.1
            exact hns s d c h
          -- relation in one of the two orders
          have hrel : SeqRel dep e inp g g' ∨ SeqRel dep e inp g' g := by
            exact pairwise_or (List.pairwise_cons.2 hp) hgb.2.2 (List.mem_cons_of_mem _ hg') hne
          have key : ∀ x y, SeqRel dep e inp x y → x.round = y.round → (∀ s d c s' d' c', ¬ (x.body = .comm k s d c ∧ y.body = .comm k s' d' c')) →
              ((∃ s d c, x.body = .comm k s d c) ∨ ∃ s d c, y.body = .comm k s d c) → Indep (x.op e inp) (y.op e inp) := by
            intro x y h hxy hn hor
            obtain ⟨m1, m2⟩ := h.indep hxy (by
              rcases hor with ⟨s, d, c, h⟩ | ⟨s, d, c, h⟩
              · exact Or.inr (Or.inl (isOth_comm h))
              · exact Or.inr (Or.inr (isOth_comm h)))
            refine ⟨m1, ?_⟩
            rcases m2 with ⟨k', s1, d1, c1, s2, d2, c2, q1, q2⟩ | m2
            · exfalso
              rcases hor with ⟨s, d, c, h⟩ | ⟨s, d, c, h⟩
              · rw [q1] at h; injection h with h; subst h
                exact hn _ _ _ _ _ _ ⟨q1, q2⟩
              · rw [q2] at h; injection h with h; subst h
                exact hn _ _ _ _ _ _ ⟨q1, q2⟩
            · exact m2
          rcases hrel with h | h
          · exact key g g' h (by omega) (fun _ _ _ s d c hh => hns s d c hh.2) (Or.inl hgb.2.1)
          · exact (key g' g h (by omega) (fun s d c _ _ _ hh => hns s d c hh.1) (Or.inr hgb.2.1)).symm
        have hsub : ∀ g, g ∈ a :: l.filter (CAct.same a.round k) → g ∈ a :: l := by
          intro g hg
          exact (List.filter_sublist.cons_cons a).subset hg
        by_cases cl : (a :: l.filter (CAct.same a.round k)).length > 1
        · have e1 : combGo e seen off (a :: l) = (emitGroup e a.round k off (a :: l.filter (CAct.same a.round k)) ++
              (combGo e ((a.round, k) :: seen) (off + sumCount (a :: l.filter (CAct.same a.round k))) l).1,
              (combGo e ((a.round, k) :: seen) (off + sumCount (a :: l.filter (CAct.same a.round k))) l).2) := by
            rw [combGo]; simp only [hb, if_neg cs, if_pos cl]
          rw [e1] at hS ⊢
          rw [List.pairwise_append]
          refine ⟨?_, ?_, ?_⟩
          · refine List.Pairwise.imp (R := fun (y z : Nat × CItem β) => y.1 < z.1) (fun h => Or.inl h) ?_
            unfold emitGroup
            by_cases ci : e.isIn k = true <;> by_cases co : e.isOut k = true <;> simp [ci, co]
          · apply ih _ _ hp.2 hTl
            intro x hx
            exact hS x ⟨Nat.le_trans (Nat.add_le_add_left (Nat.mul_le_mul_right _ (by omega)) _) hx.1, hx.2⟩
          · intro y hy z hz
            refine cross (· ∈ a :: l.filter (CAct.same a.round k)) _ off _ y z (fits_emit (by simp) ?_ y hy)
              (fun h => by rw [emit_isOth hy] at h; cases h) hz hS (by omega) hsub (fun g g' h1 h2 h3 h4 _ => hgrp g g' h1 h2 h3 h4)
            intro g hg
            rcases List.mem_cons.1 hg with rfl | hg
            · exact ⟨_, _, _, hb⟩
            · exact (same_iff.1 (List.mem_filter.1 hg).2).2
        · have e1 : combGo e seen off (a :: l) = ((3 * a.round + 1, .act (.comm k sr d c)) ::
              (combGo e ((a.round, k) :: seen) off l).1, (combGo e ((a.round, k) :: seen) off l).2) := by
            rw [combGo]; simp only [hb, if_neg cs, if_neg cl]
          rw [e1] at hS ⊢
          rw [List.pairwise_cons]
          refine ⟨fun z hz => ?_, ih _ off hp.2 hTl hS⟩
          rw [← hb]
          refine cross (· = a) _ off off _ z (fits_act a) (fun _ => rfl) hz hS (Nat.le_refl _) (by rintro g rfl; exact List.mem_cons_self) ?_
          rintro g g' rfl h2 h3 h4 _
          exact hgrp g g' List.mem_cons_self h2 h3 h4

/-- Both passes compute the same sizes. -/
theorem combGo_size (e : CEnv) (l : List (CAct β)) : ∀ seen off,
    (combGo e seen off l).2 = off + (combSize e seen l).1 ∧
    ((combGo e seen off l).1.map (·.2.ranges)).sum = (combSize e seen l).2 := by
  induction l with
  | nil => intro seen off; exact ⟨rfl, rfl⟩
  | cons a l ih =>
    intro seen off
    cases hb : a.body with
    | other op =>
      simp only [combGo, combSize, hb, List.map_cons, List.sum_cons]
      have := ih seen off
      exact ⟨this.1, by rw [this.2]; exact Nat.zero_add _⟩
    | comm k sr d c =>
      by_cases cs : (a.round, k) ∈ seen
      · simp only [combGo, combSize, hb, if_pos cs]
        exact ih seen off
      · by_cases cl : (a :: l.filter (CAct.same a.round k)).length > 1
        · simp only [combGo, combSize, hb, if_neg cs, if_pos cl]
          obtain ⟨h1, h2⟩ := ih ((a.round, k) :: seen) (off + sumCount (a :: l.filter (CAct.same a.round k)))
          refine ⟨by rw [h1]; omega, ?_⟩
          rw [List.map_append, List.sum_append, h2]
          congr 1
          unfold emitGroup
          by_cases ci : e.isIn k = true <;> by_cases co : e.isOut k = true <;> simp [ci, co, CItem.ranges, entries_length]
        · simp only [combGo, combSize, hb, if_neg cs, if_neg cl, List.map_cons, List.sum_cons]
          have := ih ((a.round, k) :: seen) off
          exact ⟨this.1, by rw [this.2]; exact Nat.zero_add _⟩

end Laik
