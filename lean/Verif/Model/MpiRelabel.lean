import Verif.Model.MpiComb
import Verif.Model.Tcp2ExecLemmas
/-!
# Only the order of rounds matters

The transformations give the same actions if rounds are renumbered in a strictly
monotone way.
-/

namespace Laik.Mp

variable {β : Type}

def rl (f : Nat → Nat) (a : CAct β) : CAct β := ⟨f a.round, a.body⟩

def MonoOn (f : Nat → Nat) (l : List (CAct β)) : Prop := ∀ a ∈ l, ∀ b ∈ l, (a.round < b.round ↔ f a.round < f b.round)

/-- Same actions, in rounds of the same order. -/
def Rl (l l' : List (CAct β)) : Prop := ∃ f, MonoOn f l ∧ l' = l.map (rl f)

theorem Rl.refl (l : List (CAct β)) : Rl l l := ⟨id, fun _ _ _ _ => Iff.rfl, by
  rw [show rl (β := β) id = id from rfl, List.map_id]⟩

theorem Rl.trans {a b c : List (CAct β)} (h : Rl a b) (h' : Rl b c) : Rl a c := by
  obtain ⟨f, h1, rfl⟩ := h
  obtain ⟨g, h2, rfl⟩ := h'
  refine ⟨g ∘ f, ?_, ?_⟩
  · intro x hx y hy
    rw [h1 x hx y hy]
    exact h2 _ (List.mem_map_of_mem hx) _ (List.mem_map_of_mem hy)
  · rw [List.map_map]
    rfl

theorem MonoOn.inj {f : Nat → Nat} {l : List (CAct β)} (h : MonoOn f l) {a b : CAct β} (ha : a ∈ l) (hb : b ∈ l)
    (e : f a.round = f b.round) : a.round = b.round := by
  have h1 := h a ha b hb
  have h2 := h b hb a ha
  omega

/-- New rounds of parts of a round. -/
def lift3 (f : Nat → Nat) (r : Nat) : Nat := 3 * f (r / 3) + r % 3

theorem lift3_0 (f : Nat → Nat) (r : Nat) : lift3 f (3 * r) = 3 * f r := by
  unfold lift3
  have h1 : 3 * r / 3 = r := by omega
  have h2 : 3 * r % 3 = 0 := by omega
  rw [h1, h2]; rfl

theorem lift3_1 (f : Nat → Nat) (r : Nat) : lift3 f (3 * r + 1) = 3 * f r + 1 := by
  unfold lift3
  have h1 : (3 * r + 1) / 3 = r := by omega
  have h2 : (3 * r + 1) % 3 = 1 := by omega
  rw [h1, h2]

theorem lift3_2 (f : Nat → Nat) (r : Nat) : lift3 f (3 * r + 2) = 3 * f r + 2 := by
  unfold lift3
  have h1 : (3 * r + 2) / 3 = r := by omega
  have h2 : (3 * r + 2) % 3 = 2 := by omega
  rw [h1, h2]

theorem lift3_mono {f : Nat → Nat} {l v : List (CAct β)} (h : MonoOn f l) (hv : ∀ y ∈ v, ∃ a ∈ l, y.round / 3 = a.round) :
    MonoOn (lift3 f) v := by
  intro x hx y hy
  obtain ⟨a, ha, e1⟩ := hv x hx
  obtain ⟨b, hb, e2⟩ := hv y hy
  have h1 := h a ha b hb
  have h2 := h b hb a ha
  unfold lift3
  rw [e1, e2]
  have h3 : a.round = b.round → f a.round = f b.round := fun e => by rw [e]
  have h4 := Nat.mod_lt x.round (show 0 < 3 by omega)
  have h5 := Nat.mod_lt y.round (show 0 < 3 by omega)
  have h6 := Nat.div_add_mod x.round 3
  have h7 := Nat.div_add_mod y.round 3
  rw [e1] at h6
  rw [e2] at h7
  rcases Nat.lt_trichotomy a.round b.round with c | c | c
  · have := h1.1 c; omega
  · have := h3 c; omega
  · have := h2.1 c; omega

/-! ### Combining -/

theorem rl_same (f : Nat → Nat) {a b : CAct β} {k : CKey} (h : f a.round = f b.round → a.round = b.round) :
    (rl f b).same (f a.round) k = b.same a.round k := by
  unfold CAct.same rl
  cases b.body with
  | other op => rfl
  | comm k' s d c =>
    simp only
    congr 1
    rw [eq_iff_iff]
    constructor
    · rintro ⟨h1, h2⟩; exact ⟨(h h1.symm).symm, h2⟩
    · rintro ⟨h1, h2⟩; exact ⟨by rw [h1], h2⟩

theorem rl_entries (f : Nat → Nat) (es : Nat) (l : List (CAct β)) : ∀ off,
    entries es CAct.src off (l.map (rl f)) = entries es CAct.src off l ∧ entries es CAct.dst off (l.map (rl f)) = entries es CAct.dst off l := by
  induction l with
  | nil => intro off; exact ⟨rfl, rfl⟩
  | cons a l ih =>
    intro off
    constructor
    · rw [List.map_cons, entries, entries, ← (ih _).1]; rfl
    · rw [List.map_cons, entries, entries, ← (ih _).2]; rfl

theorem rl_sumCount (f : Nat → Nat) (l : List (CAct β)) : sumCount (l.map (rl f)) = sumCount l := by
  unfold sumCount
  rw [List.map_map]
  rfl

theorem rl_emit (f : Nat → Nat) (e : CEnv) (r : Nat) (k : CKey) (off : Nat) (g : List (CAct β)) :
    emitGroup e (f r) k off (g.map (rl f)) = (emitGroup e r k off g).map (fun y => (lift3 f y.1, y.2)) := by
  unfold emitGroup
  rw [(rl_entries f e.elemsize g off).1, (rl_entries f e.elemsize g off).2, rl_sumCount, List.map_append, List.map_append]
  congr 1
  · congr 1
    · split
      · rw [List.map_singleton, lift3_0]
      · rfl
    · rw [List.map_singleton, lift3_1]
  · split
    · rw [List.map_singleton, lift3_2]
    · rfl

theorem rl_combGo (f : Nat → Nat) (e : CEnv) (l : List (CAct β)) : ∀ seen off,
    (∀ a ∈ l, ∀ b ∈ l, f a.round = f b.round → a.round = b.round) → (∀ a ∈ l, ∀ x ∈ seen, f a.round = f x.1 → a.round = x.1) →
    combGo e (seen.map (fun x => (f x.1, x.2))) off (l.map (rl f)) =
      ((combGo e seen off l).1.map (fun y => (lift3 f y.1, y.2)), (combGo e seen off l).2) := by
  induction l with
  | nil => intro seen off _ _; rfl
  | cons a l ih =>
    intro seen off h1 h2
    have h1' : ∀ a ∈ l, ∀ b ∈ l, f a.round = f b.round → a.round = b.round :=
      fun a ha b hb => h1 a (List.mem_cons_of_mem _ ha) b (List.mem_cons_of_mem _ hb)
    have h2' : ∀ a ∈ l, ∀ x ∈ seen, f a.round = f x.1 → a.round = x.1 := fun a ha => h2 a (List.mem_cons_of_mem _ ha)
    cases hb : a.body with
    | other op =>
      have e1 : combGo e seen off (a :: l) = ((3 * a.round + 1, .act (.other op)) :: (combGo e seen off l).1, (combGo e seen off l).2) := by
        rw [combGo]; simp only [hb]
      have e2 : combGo e (seen.map (fun x => (f x.1, x.2))) off (rl f a :: l.map (rl f)) = ((3 * f a.round + 1, .act (.other op)) :: (combGo e (seen.map (fun x => (f x.1, x.2))) off (l.map (rl f))).1, (combGo e (seen.map (fun x => (f x.1, x.2))) off (l.map (rl f))).2) := by
        rw [combGo]
        simp only [rl, hb]
      rw [List.map_cons, e1, e2, ih _ _ h1' h2', List.map_cons, lift3_1]
    | comm k s d n =>
      have hseen : (f a.round, k) ∈ seen.map (fun x => (f x.1, x.2)) ↔ (a.round, k) ∈ seen := by
        constructor
        · intro h
          obtain ⟨x, hx, ex⟩ := List.mem_map.1 h
          injection ex with ex1 ex2
          have := h2 a List.mem_cons_self x hx ex1.symm
          rw [this, ← ex2]
          exact hx
        · intro h
          exact List.mem_map.2 ⟨_, h, rfl⟩
      have hflt : (l.map (rl f)).filter (CAct.same (f a.round) k) = (l.filter (CAct.same a.round k)).map (rl f) := by
        rw [List.filter_map]
        congr 1
        apply List.filter_congr
        intro b hbl
        exact rl_same f (h1 a List.mem_cons_self b (List.mem_cons_of_mem _ hbl))
      have h2'' : ∀ b ∈ l, ∀ x ∈ (a.round, k) :: seen, f b.round = f x.1 → b.round = x.1 := by
        intro b hbl x hx
        rcases List.mem_cons.1 hx with rfl | hx
        · exact h1 b (List.mem_cons_of_mem _ hbl) a List.mem_cons_self
        · exact h2' b hbl x hx
      have hs1 : (f a.round, k) :: seen.map (fun x => (f x.1, x.2)) = ((a.round, k) :: seen).map (fun x => (f x.1, x.2)) := rfl
      rw [List.map_cons, combGo, combGo]
      have hb' : (rl f a).body = .comm k s d n := hb
      have hr' : (rl f a).round = f a.round := rfl
      simp only [hb, hb', hr']
      by_cases c : (a.round, k) ∈ seen
      · rw [if_pos c, if_pos (hseen.2 c), ih _ _ h1' h2']
      · rw [if_neg c, if_neg (fun h => c (hseen.1 h)), hflt, hs1]
        have hg : rl f a :: (l.filter (CAct.same a.round k)).map (rl f) = (a :: l.filter (CAct.same a.round k)).map (rl f) := rfl
        rw [hg, List.length_map, rl_sumCount, rl_emit]
        split
        · rw [ih _ _ h1' h2'', List.map_append]
        · rw [ih _ _ h1' h2'', List.map_cons, lift3_1]

theorem Rl.comb1 (c : PCtx β) (B : Nat) {l l' : List (CAct β)} (h : Rl l l') : Rl (c.comb1 B l) (c.comb1 B l') := by
  obtain ⟨f, hf, rfl⟩ := h
  refine ⟨lift3 f, ?_, ?_⟩
  · apply lift3_mono hf
    intro y hy
    obtain ⟨a, ha, h⟩ := comb1_shape c B l y hy
    refine ⟨a, ha, ?_⟩
    rcases h with ⟨h, _⟩ | ⟨h | h, _⟩ <;> rw [h] <;> omega
  · unfold PCtx.comb1
    have := rl_combGo f c.env l [] 0 (fun a ha b hb => hf.inj ha hb) (by simp)
    rw [List.map_nil] at this
    rw [this, List.map_map, List.map_map]
    rfl

theorem combSize_nodup (e : CEnv) (l : List (CAct β)) : ∀ seen off,
    (∀ a ∈ l, ∀ k s d n, a.body = .comm k s d n → 0 < n) → (∀ a ∈ l, ∀ k s d n, a.body = .comm k s d n → (a.round, k) ∉ seen) →
    (combSize e seen l).1 = 0 → (combGo e seen off l).1 = l.map (fun a => (3 * a.round + 1, .act a.body)) := by
  induction l with
  | nil => intro seen off _ _ _; rfl
  | cons a l ih =>
    intro seen off hpos hs h0
    have hpos' : ∀ a ∈ l, ∀ k s d n, a.body = .comm k s d n → 0 < n := fun a ha => hpos a (List.mem_cons_of_mem _ ha)
    cases hb : a.body with
    | other op =>
      rw [combSize] at h0
      simp only [hb] at h0
      rw [combGo]
      simp only [hb]
      rw [List.map_cons, ih seen off hpos' (fun a ha => hs a (List.mem_cons_of_mem _ ha)) h0, hb]
    | comm k s d n =>
      have c := hs a List.mem_cons_self k s d n hb
      rw [combSize] at h0
      simp only [hb, if_neg c] at h0
      have hcnt : a.count = n := by unfold CAct.count; rw [hb]
      have hn := hpos a List.mem_cons_self k s d n hb
      have hlen : ¬ (a :: l.filter (CAct.same a.round k)).length > 1 := by
        intro hl
        rw [if_pos hl] at h0
        simp only [sumCount, List.map_cons, List.sum_cons] at h0
        omega
      rw [if_neg hlen] at h0
      rw [combGo]
      simp only [hb, if_neg c, if_neg hlen]
      rw [List.map_cons, hb, ih _ off hpos' _ h0]
      intro b hbl k' s' d' n' hbb hm
      rcases List.mem_cons.1 hm with e | hm
      · injection e with e1 e2
        have : b ∈ l.filter (CAct.same a.round k) := List.mem_filter.2 ⟨hbl, same_iff.2 ⟨e1, s', d', n', by rw [hbb, e2]⟩⟩
        apply hlen
        have := List.length_pos_of_mem this
        simp only [List.length_cons]
        omega
      · exact hs b (List.mem_cons_of_mem _ hbl) k' s' d' n' hbb hm

/-- `laik_aseq_combineActions` is `comb1` up to the numbers of rounds. -/
theorem combineAt_rl (c : PCtx β) (B : Nat) {l l1 : List (CAct β)} (h : c.combineAt B l = some l1)
    (hpos : ∀ a ∈ l, ∀ k s d n, a.body = .comm k s d n → 0 < n) : Rl (c.comb1 B l) l1 := by
  unfold PCtx.combineAt at h
  cases hc : combine c.env l with
  | none => rw [hc] at h; cases h
  | some r =>
    rw [hc] at h
    cases r with
    | new n cs =>
      have : l1 = cs.map (fun y => (⟨y.1, allocItem B y.2⟩ : CAct β)) := by
        simp only [Option.map_some, Option.some.injEq] at h; exact h.symm
      rw [this, (combine_new hc).1]
      exact Rl.refl _
    | unchanged =>
      have : l1 = l := by simp only [Option.map_some, Option.some.injEq] at h; exact h.symm
      subst this
      have h0 : (combSize c.env [] l1).1 = 0 := by
        unfold combine at hc
        simp only at hc
        by_contra hne
        rw [if_neg hne] at hc
        split at hc <;> simp at hc
      have e : c.comb1 B l1 = l1.map (rl (fun r => 3 * r + 1)) := by
        unfold PCtx.comb1
        rw [combSize_nodup c.env l1 [] 0 hpos (by simp) h0, List.map_map]
        rfl
      rw [e]
      refine ⟨fun r => r / 3, ?_, ?_⟩
      · intro a ha b hb
        obtain ⟨a', _, rfl⟩ := List.mem_map.1 ha
        obtain ⟨b', _, rfl⟩ := List.mem_map.1 hb
        simp only [rl]
        omega
      · rw [List.map_map]
        conv_lhs => rw [← List.map_id l1]
        apply List.map_congr_left
        intro a _
        simp only [rl, Function.comp, id]
        have : (3 * a.round + 1) / 3 = a.round := by omega
        rw [this]

/-! ### Splitting reductions -/

theorem rl_slotRecvs (f : Nat → Nat) (c : PCtx β) (B r n : Nat) (ins : List Nat) :
    c.slotRecvs B (f r) n ins = (c.slotRecvs B r n ins).map (rl (lift3 f)) := by
  unfold PCtx.slotRecvs
  rw [List.map_map]
  apply List.map_congr_left
  intro x _
  simp only [Function.comp, rl, lift3_0]

theorem rl_slotReduce (f : Nat → Nat) (c : PCtx β) (B r s d n : Nat) (ins : List Nat) :
    c.slotReduce B (f r) s d n ins = (c.slotReduce B r s d n ins).map (rl (lift3 f)) := by
  unfold PCtx.slotReduce
  simp only
  split
  · simp only [List.map_singleton, rl, lift3_1]
  · split
    · rw [List.map_append, List.map_map]
      congr 1
      · split
        · rfl
        · simp only [List.map_singleton, rl, lift3_1]
      · apply List.map_congr_left
        intro x _
        simp only [Function.comp, rl, lift3_1]
    · rw [List.map_cons, List.map_map]
      congr 1
      · simp only [rl, lift3_1]
      · apply List.map_congr_left
        intro x _
        simp only [Function.comp, rl, lift3_1]

theorem rl_red3 (f : Nat → Nat) (c : PCtx β) (B r s d n : Nat) (ins outs : List Nat) :
    c.red3 B (f r) s d n ins outs = (c.red3 B r s d n ins outs).map (fun x => (x.1.map (rl (lift3 f)), x.2)) := by
  unfold PCtx.red3
  cases outs with
  | nil => rfl
  | cons t os =>
    simp only
    split
    · simp only [Option.map_some, Option.some.injEq, Prod.mk.injEq, and_true]
      rw [List.map_append]
      congr 1
      · split
        · simp only [List.map_singleton, rl, lift3_0]
        · rfl
      · split
        · simp only [List.map_singleton, rl, lift3_2]
        · rfl
    · split
      · simp only [Option.map_some, Option.some.injEq, Prod.mk.injEq, and_true]
        rw [List.map_append, List.map_append, rl_slotRecvs, rl_slotReduce, List.map_map]
        congr 1
        apply List.map_congr_left
        intro x _
        simp only [Function.comp, rl, lift3_2]
      · rfl

theorem rl_red2 (f : Nat → Nat) (c : PCtx β) (B r s d n : Nat) (ins outs : List Nat) :
    c.red2 B (f r) s d n ins outs = (c.red2 B r s d n ins outs).map (fun x => (x.1.map (rl (lift3 f)), x.2)) := by
  have hsnd : (if c.me ∈ ins then (outs.filter (fun q => q ≠ c.me)).map (fun q => (⟨3 * f r, .comm (.send q) s 0 n⟩ : CAct β)) else []) =
      (if c.me ∈ ins then (outs.filter (fun q => q ≠ c.me)).map (fun q => (⟨3 * r, .comm (.send q) s 0 n⟩ : CAct β)) else []).map (rl (lift3 f)) := by
    split
    · rw [List.map_map]
      apply List.map_congr_left
      intro x _
      simp only [Function.comp, rl, lift3_0]
    · rfl
  unfold PCtx.red2
  simp only
  split
  · split
    · simp only [Option.map_some, Option.some.injEq, Prod.mk.injEq, and_true]
      rw [List.map_append, List.map_append, rl_slotRecvs, rl_slotReduce, hsnd]
    · rfl
  · simp only [Option.map_some, Option.some.injEq, Prod.mk.injEq, and_true]
    exact hsnd

theorem splitGo_gred (c : PCtx β) (B : Nat) {a : CAct β} (l : List (CAct β)) {i o : Int} {op s d n : Nat} (h : a.body = .comm (.gred i o op) s d n) :
    c.splitGo B (a :: l) =
      (if (transGroup c.n c.gs i).length * (transGroup c.n c.gs i).length > 4 * ((transGroup c.n c.gs i).length + (transGroup c.n c.gs i).length)
         then c.red3 B a.round s d n (transGroup c.n c.gs i) (transGroup c.n c.gs o)
         else c.red2 B a.round s d n (transGroup c.n c.gs i) (transGroup c.n c.gs o)).bind (fun x => (c.splitGo (B + x.2) l).map (x.1 ++ ·)) := by
  rw [PCtx.splitGo]
  simp only [h]

theorem splitGo_other (c : PCtx β) (B : Nat) {a : CAct β} (l : List (CAct β)) (h : CAct.isGred a = false) :
    c.splitGo B (a :: l) = (c.splitGo B l).map (⟨3 * a.round + 1, a.body⟩ :: ·) := by
  rw [PCtx.splitGo]
  unfold CAct.isGred at h
  cases hb : a.body with
  | other op => rfl
  | comm k s d n =>
    cases k with
    | gred i o op => rw [hb] at h; cases h
    | send => rfl
    | recv => rfl
    | red => rfl

theorem rl_splitGo (f : Nat → Nat) (c : PCtx β) (l : List (CAct β)) : ∀ B,
    c.splitGo B (l.map (rl f)) = (c.splitGo B l).map (List.map (rl (lift3 f))) := by
  induction l with
  | nil => intro B; rfl
  | cons a l ih =>
    intro B
    rw [List.map_cons]
    cases hg : (CAct.isGred a) with
    | false =>
      have hg' : CAct.isGred (rl f a) = false := hg
      rw [splitGo_other c B l hg, splitGo_other c B _ hg', ih]
      cases c.splitGo B l with
      | none => rfl
      | some v =>
        simp only [Option.map_some, List.map_cons, rl, lift3_1]
    | true =>
      unfold CAct.isGred at hg
      cases hb : a.body with
      | other op => rw [hb] at hg; cases hg
      | comm k s d n =>
        cases k with
        | send => rw [hb] at hg; cases hg
        | recv => rw [hb] at hg; cases hg
        | red => rw [hb] at hg; cases hg
        | gred i o op =>
          have hb' : (rl f a).body = .comm (.gred i o op) s d n := hb
          have hr' : (rl f a).round = f a.round := rfl
          rw [splitGo_gred c B l hb, splitGo_gred c B _ hb', hr']
          rw [rl_red3, rl_red2]
          split <;> rename_i hc
          · cases c.red3 B a.round s d n (transGroup c.n c.gs i) (transGroup c.n c.gs o) with
            | none => rfl
            | some x =>
              simp only [Option.map_some, Option.bind_some]
              rw [ih]
              cases c.splitGo (B + x.2) l with
              | none => rfl
              | some v => simp only [Option.map_some, List.map_append]
          · cases c.red2 B a.round s d n (transGroup c.n c.gs i) (transGroup c.n c.gs o) with
            | none => rfl
            | some x =>
              simp only [Option.map_some, Option.bind_some]
              rw [ih]
              cases c.splitGo (B + x.2) l with
              | none => rfl
              | some v => simp only [Option.map_some, List.map_append]

theorem splitGo_rounds (c : PCtx β) (l : List (CAct β)) : ∀ B v, c.splitGo B l = some v → ∀ y ∈ v, ∃ a ∈ l, y.round / 3 = a.round := by
  induction l with
  | nil => intro B v h y hy; cases h; cases hy
  | cons a l ih =>
    intro B v h y hy
    have hslot : ∀ B n ins, ∀ y ∈ c.slotRecvs B a.round n ins, y.round / 3 = a.round := by
      intro B n ins y hy
      obtain ⟨x, _, rfl⟩ := List.mem_map.1 hy
      show 3 * a.round / 3 = a.round
      omega
    have hred : ∀ B s d n ins, ∀ y ∈ c.slotReduce B a.round s d n ins, y.round / 3 = a.round := by
      intro B s d n ins y hy
      unfold PCtx.slotReduce at hy
      have hr : y.round = 3 * a.round + 1 := by
        simp only at hy
        split at hy
        · rw [List.mem_singleton] at hy; rw [hy]
        · split at hy
          · rcases List.mem_append.1 hy with hy | hy
            · split at hy
              · cases hy
              · rw [List.mem_singleton] at hy; rw [hy]
            · obtain ⟨x, _, rfl⟩ := List.mem_map.1 hy; rfl
          · rcases List.mem_cons.1 hy with rfl | hy
            · rfl
            · obtain ⟨x, _, rfl⟩ := List.mem_map.1 hy; rfl
      rw [hr]; omega
    have hr3 : ∀ s d n ins outs x, c.red3 B a.round s d n ins outs = some x → ∀ y ∈ x.1, y.round / 3 = a.round := by
      intro s d n ins outs x hx y hy
      unfold PCtx.red3 at hx
      cases outs with
      | nil => cases hx
      | cons t os =>
        simp only at hx
        split at hx
        · cases hx
          rcases List.mem_append.1 hy with hy | hy
          · split at hy
            · rw [List.mem_singleton] at hy; rw [hy]; simp only; omega
            · cases hy
          · split at hy
            · rw [List.mem_singleton] at hy; rw [hy]; simp only; omega
            · cases hy
        · split at hx
          · cases hx
            rcases List.mem_append.1 hy with hy | hy
            · rcases List.mem_append.1 hy with hy | hy
              · exact hslot _ _ _ y hy
              · exact hred _ _ _ _ _ y hy
            · obtain ⟨q, _, rfl⟩ := List.mem_map.1 hy
              simp only; omega
          · cases hx
    have hr2 : ∀ s d n ins outs x, c.red2 B a.round s d n ins outs = some x → ∀ y ∈ x.1, y.round / 3 = a.round := by
      intro s d n ins outs x hx y hy
      have hsnd : ∀ y ∈ (if c.me ∈ ins then (outs.filter (fun q => q ≠ c.me)).map (fun q => (⟨3 * a.round, .comm (.send q) s 0 n⟩ : CAct β)) else []),
          y.round / 3 = a.round := by
        intro y hy
        split at hy
        · obtain ⟨q, _, rfl⟩ := List.mem_map.1 hy
          simp only; omega
        · cases hy
      unfold PCtx.red2 at hx
      simp only at hx
      split at hx
      · split at hx
        · cases hx
          rcases List.mem_append.1 hy with hy | hy
          · rcases List.mem_append.1 hy with hy | hy
            · exact hsnd y hy
            · exact hslot _ _ _ y hy
          · exact hred _ _ _ _ _ y hy
        · cases hx
      · cases hx
        exact hsnd y hy
    cases hg : (CAct.isGred a) with
    | false =>
      rw [splitGo_other c B l hg] at h
      cases hv : c.splitGo B l with
      | none => rw [hv] at h; cases h
      | some w =>
        rw [hv] at h
        cases h
        rcases List.mem_cons.1 hy with rfl | hy
        · exact ⟨a, List.mem_cons_self, by simp only; omega⟩
        · obtain ⟨b, hb, e⟩ := ih B w hv y hy
          exact ⟨b, List.mem_cons_of_mem _ hb, e⟩
    | true =>
      unfold CAct.isGred at hg
      cases hb : a.body with
      | other op => rw [hb] at hg; cases hg
      | comm k s d n =>
        cases k with
        | send => rw [hb] at hg; cases hg
        | recv => rw [hb] at hg; cases hg
        | red => rw [hb] at hg; cases hg
        | gred i o op =>
          rw [splitGo_gred c B l hb] at h
          obtain ⟨x, hx, h⟩ := Option.bind_eq_some_iff.1 h
          cases hv : c.splitGo (B + x.2) l with
          | none => rw [hv] at h; cases h
          | some w =>
            rw [hv] at h
            cases h
            rcases List.mem_append.1 hy with hy | hy
            · refine ⟨a, List.mem_cons_self, ?_⟩
              split at hx
              · exact hr3 _ _ _ _ _ x hx y hy
              · exact hr2 _ _ _ _ _ x hx y hy
            · obtain ⟨b, hb, e⟩ := ih _ w hv y hy
              exact ⟨b, List.mem_cons_of_mem _ hb, e⟩

theorem Rl.splitGo (c : PCtx β) (B : Nat) {l l' v' : List (CAct β)} (h : Rl l l') (hv : c.splitGo B l' = some v') :
    ∃ v, c.splitGo B l = some v ∧ Rl v v' := by
  obtain ⟨f, hf, rfl⟩ := h
  rw [rl_splitGo] at hv
  cases e : c.splitGo B l with
  | none => rw [e] at hv; cases hv
  | some v =>
    rw [e] at hv
    cases hv
    exact ⟨v, rfl, lift3 f, lift3_mono hf (splitGo_rounds c l B v e), rfl⟩

theorem splitReduce_rl (c : PCtx β) (B : Nat) {l l2 : List (CAct β)} (h : c.splitReduce B l = some l2) :
    ∃ v, c.splitGo B l = some v ∧ Rl v l2 := by
  unfold PCtx.splitReduce at h
  split at h
  · exact ⟨l2, h, Rl.refl _⟩
  · rename_i hc
    cases h
    have hn : ∀ a ∈ l, (CAct.isGred a) = false := by
      intro a ha
      rw [Bool.eq_false_iff]
      intro hh
      exact hc (List.any_eq_true.2 ⟨a, ha, hh⟩)
    have e : c.splitGo B l = some (l.map (rl (fun r => 3 * r + 1))) := by
      clear hc
      induction l with
      | nil => rfl
      | cons a l ih =>
        rw [splitGo_other c B l (hn a List.mem_cons_self), ih (fun b hb => hn b (List.mem_cons_of_mem _ hb))]
        rfl
    refine ⟨_, e, fun r => r / 3, ?_, ?_⟩
    · intro a ha b hb
      obtain ⟨a', _, rfl⟩ := List.mem_map.1 ha
      obtain ⟨b', _, rfl⟩ := List.mem_map.1 hb
      simp only [rl]
      omega
    · rw [List.map_map]
      conv_lhs => rw [← List.map_id l]
      apply List.map_congr_left
      intro a _
      simp only [rl, Function.comp, id]
      have : (3 * a.round + 1) / 3 = a.round := by omega
      rw [this]

/-! ### Sorting -/

/-- Sign only depends on the order of rounds. -/
def RoundCmp (cmp : Act (CBody β) × Nat → Act (CBody β) × Nat → Int) : Prop :=
  (∀ a b, cmp a b ≤ 0 → a.1.round ≤ b.1.round) ∧
  ∀ a b a' b' : Act (CBody β) × Nat, (a.1.round < b.1.round ↔ a'.1.round < b'.1.round) → (b.1.round < a.1.round ↔ b'.1.round < a'.1.round) →
    a.1.kind = a'.1.kind → b.1.kind = b'.1.kind → a.2 = a'.2 → b.2 = b'.2 → cmp a b ≤ 0 → cmp a' b' ≤ 0

theorem roundCmp_rounds : RoundCmp (β := β) cmpRounds := by
  refine ⟨fun a b => cmpRounds_round, ?_⟩
  intro a b a' b' h1 h2 _ _ h5 h6 h
  unfold cmpRounds at *
  rw [h5, h6] at h
  split at h <;> split <;> omega

theorem roundCmp_2phase (me : Nat) : RoundCmp (β := β) (cmp2phase me) := by
  refine ⟨fun a b => cmp2phase_round, ?_⟩
  intro a b a' b' h1 h2 h3 h4 h5 h6 h
  unfold cmp2phase at *
  rw [h3, h4, h5, h6] at h
  by_cases c : a.1.round ≠ b.1.round
  · have c' : a'.1.round ≠ b'.1.round := by omega
    rw [if_pos c] at h
    rw [if_pos c']
    omega
  · have c' : ¬ a'.1.round ≠ b'.1.round := by omega
    rw [if_neg c] at h
    rw [if_neg c']
    exact h

/-- Sorted version of a sequence. -/
def SortOf (cmp : Act (CBody β) × Nat → Act (CBody β) × Nat → Int) (l : List (CAct β)) (s : List (CAct β × Nat)) : Prop :=
  s.Perm l.zipIdx ∧ s.Pairwise (fun a b => cmp (CAct.toAct a.1, a.2) (CAct.toAct b.1, b.2) ≤ 0)

theorem toC_toAct (a : CAct β) : Act.toC (CAct.toAct a) = a := rfl

theorem sort_rl {cmp : Act (CBody β) × Nat → Act (CBody β) × Nat → Int} (hcmp : RoundCmp cmp) {l l' : List (CAct β)} (h : Rl l l')
    {s' : List (Act (CBody β) × Nat)} (hs : IsPtrSort cmp (l'.map CAct.toAct) s') {r' : List (Act (CBody β))}
    (hr : sortSeq (l'.map CAct.toAct) s' = some r') :
    ∃ s, SortOf cmp l s ∧ Rl (s.map (·.1)) (r'.map Act.toC) := by
  obtain ⟨f, hf, rfl⟩ := h
  let fwd : CAct β × Nat → Act (CBody β) × Nat := fun x => (CAct.toAct (rl f x.1), x.2)
  let bwd : Act (CBody β) × Nat → CAct β × Nat := fun y => ((l[y.2]?).getD (Act.toC y.1), y.2)
  have hz : ((l.map (rl f)).map CAct.toAct).zipIdx = l.zipIdx.map fwd := by
    rw [List.map_map, List.zipIdx_map]
    rfl
  have hbf : ∀ x ∈ l.zipIdx, bwd (fwd x) = x := by
    intro x hx
    have := List.mem_zipIdx_iff_getElem?.1 hx
    show ((l[x.2]?).getD _, x.2) = x
    rw [this]
    rfl
  have hs1 : s'.Perm (l.zipIdx.map fwd) := hz ▸ hs.1
  have hfb : ∀ y ∈ s', fwd (bwd y) = y := by
    intro y hy
    obtain ⟨x, hx, rfl⟩ := List.mem_map.1 (hs1.subset hy)
    rw [hbf x hx]
  have hsl : ∀ y ∈ s', (bwd y) ∈ l.zipIdx := by
    intro y hy
    obtain ⟨x, hx, rfl⟩ := List.mem_map.1 (hs1.subset hy)
    rw [hbf x hx]
    exact hx
  have hmap : (s'.map bwd).map fwd = s' := by
    rw [List.map_map]
    conv_rhs => rw [← List.map_id s']
    apply List.map_congr_left
    intro y hy
    exact hfb y hy
  have hperm : (s'.map bwd).Perm l.zipIdx := by
    have := hs1.map bwd
    rw [List.map_map] at this
    have e : l.zipIdx.map (bwd ∘ fwd) = l.zipIdx := by
      conv_rhs => rw [← List.map_id l.zipIdx]
      apply List.map_congr_left
      intro x hx
      exact hbf x hx
    rw [e] at this
    exact this
  have hmem : ∀ x ∈ s'.map bwd, x.1 ∈ l := by
    intro x hx
    exact List.fst_mem_of_mem_zipIdx (hperm.subset hx)
  have hpw : (s'.map bwd).Pairwise (fun a b => cmp (CAct.toAct a.1, a.2) (CAct.toAct b.1, b.2) ≤ 0) := by
    have h1 : ((s'.map bwd).map fwd).Pairwise (fun a b => cmp a b ≤ 0) := by rw [hmap]; exact hs.2
    rw [List.pairwise_map] at h1
    have h2 : (s'.map bwd).Pairwise (fun x y => x ∈ s'.map bwd ∧ y ∈ s'.map bwd) := List.pairwise_of_forall_mem_list (fun a ha b hb => ⟨ha, hb⟩)
    refine (h1.and h2).imp ?_
    rintro a b ⟨hab, ha, hb⟩
    have m1 := hf a.1 (hmem a ha) b.1 (hmem b hb)
    have m2 := hf b.1 (hmem b hb) a.1 (hmem a ha)
    exact hcmp.2 (fwd a) (fwd b) _ _ m1.symm m2.symm rfl rfl rfl rfl hab
  have hfst : (s'.map (·.1)).map Act.toC = ((s'.map bwd).map (·.1)).map (rl f) := by
    conv_lhs => rw [← hmap]
    simp only [List.map_map]
    rfl
  have hmono : MonoOn f ((s'.map bwd).map (·.1)) := by
    intro a ha b hb
    obtain ⟨x, hx, rfl⟩ := List.mem_map.1 ha
    obtain ⟨y, hy, rfl⟩ := List.mem_map.1 hb
    exact hf _ (hmem x hx) _ (hmem y hy)
  refine ⟨s'.map bwd, ⟨hperm, hpw⟩, ?_⟩
  unfold sortSeq at hr
  split at hr
  · rename_i hnil
    have hl : l = [] := by
      rw [List.map_map] at hnil
      exact List.map_eq_nil_iff.1 hnil
    subst hl
    have : s' = [] := by
      rw [List.zipIdx_nil, List.map_nil] at hs1
      exact List.perm_nil.1 hs1
    subst this
    cases hr
    exact Rl.refl _
  · split at hr
    · rename_i hrange
      have hs' : s'.map bwd = l.zipIdx := by
        refine hperm.eq_of_pairwise (le := fun x y => x.2 < y.2) ?_ ?_ (zipIdx_lt l 0)
        · intro a b _ _ h1 h2; omega
        · have : ((s'.map bwd).map (·.2)).Pairwise (· < ·) := by
            rw [List.map_map]
            have e : s'.map ((fun x => x.2) ∘ bwd) = s'.map (·.2) := rfl
            rw [e, hrange]
            exact List.pairwise_lt_range
          rw [List.pairwise_map] at this
          exact this
      cases hr
      rw [hs', List.zipIdx_map_fst]
      refine ⟨f, hf, ?_⟩
      rw [List.map_map, List.map_map]
      rfl
    · rename_i hnil _
      have hne : s'.map (·.1) ≠ [] := by
        intro hh
        have h0 : s' = [] := List.map_eq_nil_iff.1 hh
        rw [h0] at hs1
        have h1 : l.zipIdx.map fwd = [] := List.nil_perm.1 hs1
        apply hnil
        have h2 := List.map_eq_nil_iff.1 h1
        have : l = [] := by
          rw [← List.zipIdx_map_fst 0 l, h2]
          rfl
        rw [this]
        rfl
      have hsort : (s'.map (·.1)).Pairwise (fun a b => a.round ≤ b.round) := by
        rw [List.pairwise_map]
        exact hs.2.imp (fun h => hcmp.1 _ _ h)
      obtain ⟨g, hg1, hg2, _⟩ := addResorted_spec (s'.map (·.1)) hne hsort
      rw [hg1] at hr
      cases hr
      refine Rl.trans ⟨f, hmono, rfl⟩ ?_
      rw [← hfst]
      refine ⟨g, ?_, ?_⟩
      · intro a ha b hb
        obtain ⟨x, hx, rfl⟩ := List.mem_map.1 ha
        obtain ⟨y, hy, rfl⟩ := List.mem_map.1 hb
        exact hg2 x hx y hy
      · simp only [List.map_map]
        rfl

/-- Sorting by rounds: actions of each round in their order. -/
theorem rounds_blocks {α : Type} (rd : α → Nat) (s : List α) (rs : List Nat) (hrs : rs.Pairwise (· < ·)) (hs : s.Pairwise (fun a b => rd a ≤ rd b))
    (hmem : ∀ a ∈ s, rd a ∈ rs) : s = rs.flatMap (fun r => s.filter (fun a => rd a = r)) := by
  induction rs generalizing s with
  | nil =>
    cases s with
    | nil => rfl
    | cons a s => exact absurd (hmem a List.mem_cons_self) (by simp)
  | cons r rs ih =>
    rw [List.pairwise_cons] at hrs
    have h1 := DE.split_filter (fun a => decide (rd a = r)) s (by
      refine (List.Pairwise.and hs (List.pairwise_of_forall_mem_list (r := fun a b => a ∈ s ∧ b ∈ s) (fun a ha b hb => ⟨ha, hb⟩))).imp ?_
      rintro a b ⟨hab, ha, hb⟩ h
      rw [decide_eq_true_eq] at *
      rcases List.mem_cons.1 (hmem a ha) with h2 | h2
      · exact h2
      · have := hrs.1 _ h2; omega)
    have h2 := ih (s.filter (fun a => !decide (rd a = r))) hrs.2 (hs.sublist List.filter_sublist) (by
      intro a ha
      rw [List.mem_filter] at ha
      rcases List.mem_cons.1 (hmem a ha.1) with h3 | h3
      · simp [h3] at ha
      · exact h3)
    conv_lhs => rw [h1, h2]
    rw [List.flatMap_cons]
    congr 1
    apply List.flatMap_congr
    intro r' hr'
    rw [List.filter_filter]
    apply List.filter_congr
    intro a _
    have := hrs.1 r' hr'
    by_cases c : rd a = r'
    · simp [c]; omega
    · simp [c]

theorem sortRounds_blocks {l : List (CAct β)} {s : List (CAct β × Nat)} (h : SortOf cmpRounds l s) (rs : List Nat) (hrs : rs.Pairwise (· < ·))
    (hmem : ∀ a ∈ l, a.round ∈ rs) : s.map (·.1) = rs.flatMap (fun r => l.filter (fun a => a.round = r)) := by
  have h1 := rounds_blocks (fun x : CAct β × Nat => x.1.round) s rs hrs (h.2.imp (fun h => cmpRounds_round h))
    (fun a ha => hmem a.1 (List.fst_mem_of_mem_zipIdx (h.1.subset ha)))
  have h2 : ∀ r, (s.filter (fun a => a.1.round = r)) = l.zipIdx.filter (fun a => a.1.round = r) := by
    intro r
    refine (h.1.filter _).eq_of_pairwise (le := fun x y => x.2 ≤ y.2) ?_ ?_ ?_
    · intro a b ha hb h1 h2
      have e : a.2 = b.2 := by omega
      have m1 := List.mem_zipIdx_iff_getElem?.1 (h.1.subset (List.mem_filter.1 ha).1)
      have m2 := List.mem_zipIdx_iff_getElem?.1 (List.mem_filter.1 hb).1
      rw [e, m2] at m1
      injection m1 with m1
      exact Prod.ext m1.symm e
    · have hall : (s.filter (fun a => a.1.round = r)).Pairwise (fun x y => x.1.round = r ∧ y.1.round = r) :=
        List.pairwise_of_forall_mem_list (fun a ha b hb => ⟨by simpa using (List.mem_filter.1 ha).2, by simpa using (List.mem_filter.1 hb).2⟩)
      refine ((h.2.sublist List.filter_sublist).and hall).imp ?_
      rintro a b ⟨hab, ha, hb⟩
      unfold cmpRounds at hab
      rw [if_neg (by simp only [CAct.toAct, ha, hb, ne_eq, not_true_eq_false, not_false_eq_true])] at hab
      simp only at hab
      omega
    · exact ((zipIdx_lt l 0).imp (fun h => Nat.le_of_lt h)).sublist List.filter_sublist
  rw [h1, List.map_flatMap]
  apply List.flatMap_congr
  intro r _
  rw [h2 r]
  have : (l.zipIdx.filter (fun a => a.1.round = r)).map (·.1) = (l.zipIdx.map (·.1)).filter (fun a => a.round = r) := by
    rw [List.filter_map]
    rfl
  rw [this, List.zipIdx_map_fst]

end Laik.Mp
