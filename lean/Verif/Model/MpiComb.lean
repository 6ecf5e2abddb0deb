import Verif.Model.MpiPrepare
import Verif.Props.Combine
import Mathlib.Data.List.Nodup
/-!
# Combined actions with allocated buffer, sorted

`comb1` is the result of `laik_aseq_combineActions` with always renumbered rounds.
Its effect, when sorted such that other actions of one round keep their order, is
that of the original sequence.
-/

namespace Laik.Mp

variable {β : Type}

/-- Actions after combining, buffer at `B`. -/
def PCtx.comb1 (c : PCtx β) (B : Nat) (l : List (CAct β)) : List (CAct β) :=
  (combGo c.env [] 0 l).1.map (fun y => ⟨y.1, allocItem B y.2⟩)

theorem nokey_mem {K : Type} [DecidableEq K] (l : List (MOp K β)) (h : ∀ o ∈ l, o.key = none) : ∀ s s' : MSt K β, s.mem = s'.mem →
    (runOps l s).mem = (runOps l s').mem := by
  induction l with
  | nil => intro s s' hm; exact hm
  | cons o l ih =>
    intro s s' hm
    rw [runOps_cons, runOps_cons]
    apply ih (fun o' ho => h o' (List.mem_cons_of_mem _ ho))
    funext x
    have hk := h o List.mem_cons_self
    have hp : o.posOf s = o.posOf s' := by unfold MOp.posOf; rw [hk]; rfl
    rw [run_mem, run_mem, hm, hp]

theorem seqOp_run {K : Type} [DecidableEq K] (l : List (MOp K β)) (h : ∀ o ∈ l, o.key = none) (s : MSt K β) :
    (seqOp l).run s = runOps l s := by
  obtain ⟨h1, h2⟩ := runOps_nokey h s
  apply MSt.ext'
  · intro x
    rw [run_mem]
    by_cases c : (seqOp l).W x = true
    · rw [if_pos c]
      show (runOps l (MSt.ofMem s.mem)).mem x = _
      rw [nokey_mem l h (MSt.ofMem s.mem) s rfl]
    · rw [if_neg c, runOps_nowrite]
      intro o ho
      rw [Bool.eq_false_iff]
      intro hw
      exact c (List.any_eq_true.2 ⟨o, ho, hw⟩)
  · intro k
    rw [h1]; simp [MOp.run, seqOp]
  · intro k
    rw [h2]; simp [MOp.run, seqOp]

theorem item_nokey (e : CEnv) (inp : CKey → Nat → β) (B : Nat) (ce : List CEntry) :
    (∀ o ∈ (CItem.copyTo (β := β) ce).ops e inp B, o.key = none) ∧ (∀ o ∈ (CItem.copyFrom (β := β) ce).ops e inp B, o.key = none) := by
  constructor <;>
  · intro o ho
    obtain ⟨c, _, rfl⟩ := List.mem_map.1 ho
    rfl

theorem allocItem_run (e : CEnv) (inp : CKey → Nat → β) (B : Nat) (it : CItem β) (s : MSt CKey β) :
    ((allocItem B it).op e inp).run s = runOps (it.ops e inp B) s := by
  cases it with
  | act b => rfl
  | copyTo ce => exact seqOp_run _ (item_nokey e inp B ce).1 s
  | rcomm k off n => rfl
  | copyFrom ce => exact seqOp_run _ (item_nokey e inp B ce).2 s

/-- Cells and channel used by an allocated action. -/
theorem allocItem_fp (e : CEnv) (inp : CKey → Nat → β) (B : Nat) (it : CItem β) :
    (∀ x, ((allocItem B it).op e inp).R x → ∃ o ∈ it.ops e inp B, o.R x) ∧
    (∀ x, ((allocItem B it).op e inp).W x = true → ∃ o ∈ it.ops e inp B, o.W x = true) ∧
    (∀ k, ((allocItem B it).op e inp).key = some k → ∃ o ∈ it.ops e inp B, o.key = some k) := by
  cases it with
  | act b =>
    refine ⟨fun x hx => ⟨_, List.mem_singleton.2 rfl, hx⟩, fun x hx => ⟨_, List.mem_singleton.2 rfl, hx⟩, fun k hk => ⟨_, List.mem_singleton.2 rfl, hk⟩⟩
  | copyTo ce =>
    refine ⟨fun x hx => hx, fun x hx => List.any_eq_true.1 hx, fun k hk => ?_⟩
    cases hk
  | rcomm k off n =>
    refine ⟨fun x hx => ⟨_, List.mem_singleton.2 rfl, hx⟩, fun x hx => ⟨_, List.mem_singleton.2 rfl, hx⟩, fun k hk => ⟨_, List.mem_singleton.2 rfl, hk⟩⟩
  | copyFrom ce =>
    refine ⟨fun x hx => hx, fun x hx => List.any_eq_true.1 hx, fun k hk => ?_⟩
    cases hk

theorem alloc_indep {e : CEnv} {inp : CKey → Nat → β} {B : Nat} {y z : CItem β}
    (h : ∀ o ∈ y.ops e inp B, ∀ o' ∈ z.ops e inp B, Indep o o') :
    Indep ((allocItem B y).op e inp) ((allocItem B z).op e inp) := by
  obtain ⟨y1, y2, y3⟩ := allocItem_fp e inp B y
  obtain ⟨z1, z2, z3⟩ := allocItem_fp e inp B z
  refine ⟨⟨fun x hx => ⟨fun hr => ?_, ?_⟩, fun x hx hr => ?_⟩, fun k hk hk' => ?_⟩
  · obtain ⟨o, ho, hw⟩ := y2 x hx
    obtain ⟨o', ho', hr⟩ := z1 x hr
    exact ((h o ho o' ho').1.1 x hw).1 hr
  · rw [Bool.eq_false_iff]
    intro hw'
    obtain ⟨o, ho, hw⟩ := y2 x hx
    obtain ⟨o', ho', hw'⟩ := z2 x hw'
    rw [((h o ho o' ho').1.1 x hw).2] at hw'
    cases hw'
  · obtain ⟨o, ho, hr⟩ := y1 x hr
    obtain ⟨o', ho', hw⟩ := z2 x hx
    exact (h o ho o' ho').1.2 x hw hr
  · obtain ⟨o, ho, hk⟩ := y3 k hk
    obtain ⟨o', ho', hk'⟩ := z3 k hk'
    exact (h o ho o' ho').2 k hk hk'

theorem zipIdx_lt {α : Type} (l : List α) : ∀ n, (l.zipIdx n).Pairwise (fun x y => x.2 < y.2) := by
  induction l with
  | nil => intro n; exact List.Pairwise.nil
  | cons a l ih =>
    intro n
    rw [List.zipIdx_cons, List.pairwise_cons]
    refine ⟨?_, ih _⟩
    intro y hy
    have := List.le_snd_of_mem_zipIdx hy
    show n < y.2
    omega

theorem zipIdx_pairwise {α : Type} {R : α → α → Prop} {l : List α} (h : l.Pairwise R) : ∀ n, (l.zipIdx n).Pairwise (fun x y => R x.1 y.1) := by
  induction l with
  | nil => intro n; exact List.Pairwise.nil
  | cons a l ih =>
    intro n
    rw [List.pairwise_cons] at h
    rw [List.zipIdx_cons, List.pairwise_cons]
    refine ⟨?_, ih h.2 _⟩
    intro y hy
    exact h.1 y.1 (List.fst_mem_of_mem_zipIdx hy)

/-- Any reordering of the combined actions by rounds, which keeps the order of other
actions in one round, has the effect of the original sequence. -/
theorem comb_stable (c : PCtx β) (inp : CKey → Nat → β) (B : Nat) (l : List (CAct β)) (P : List (CAct β × Nat))
    (hl : l.Pairwise (SeqRel true c.env inp))
    (hbuf : ∀ a ∈ l, ∀ x, B ≤ x → x < B + (combGo c.env [] 0 l).2 * c.es → ¬ (a.op c.env inp).R x ∧ (a.op c.env inp).W x = false)
    (hperm : P.Perm (c.comb1 B l).zipIdx)
    (hord : P.Pairwise (fun a b => a.1.round ≤ b.1.round ∧
      (a.1.round = b.1.round → a.1.isOth = true → b.1.isOth = true → a.2 ≤ b.2)))
    (s : MSt CKey β) :
    SameOutside (fun x => B ≤ x ∧ x < B + (combGo c.env [] 0 l).2 * c.es) (runOps (l.map (CAct.op c.env inp)) s)
      (runOps ((P.map (·.1)).map (CAct.op c.env inp)) s) := by
  have hs : ∀ x, Slice c.env B 0 (combGo c.env [] 0 l).2 x → B ≤ x ∧ x < B + (combGo c.env [] 0 l).2 * c.es := by
    intro x hx
    have h1 := hx.1
    have h2 := hx.2
    have h3 : c.env.elemsize = c.es := rfl
    rw [h3] at h1 h2
    exact ⟨by omega, h2⟩
  have hb : ∀ a ∈ l, ∀ x, (B ≤ x ∧ x < B + (combGo c.env [] 0 l).2 * c.es) → ¬ (a.op c.env inp).R x ∧ (a.op c.env inp).W x = false :=
    fun a ha x hx => hbuf a ha x hx.1 hx.2
  have h1 := combGo_run c.env inp B _ l [] 0 hl hb hs s s (SameOutside.refl _ _)
  have hf : l.filter (unseen []) = l := by
    rw [List.filter_eq_self]
    intro a _
    unfold unseen
    cases a.body <;> simp
  rw [hf] at h1
  have e1 : ∀ (L : List (Nat × CItem β)) (s : MSt CKey β), runOps (opsOf c.env inp B L) s =
      runOps ((L.map (fun y => (⟨y.1, allocItem B y.2⟩ : CAct β))).map (CAct.op c.env inp)) s := by
    intro L
    induction L with
    | nil => intro s; rfl
    | cons y L ih =>
      intro s
      unfold opsOf at ih ⊢
      rw [List.flatMap_cons, runOps_append, ih, List.map_cons, List.map_cons, runOps_cons, ← allocItem_run]
      rfl
  have hp := zipIdx_pairwise (List.Pairwise.map (fun y => (⟨y.1, allocItem B y.2⟩ : CAct β)) (R := fun y z : Nat × CItem β => y.1 < z.1 ∨
      (∀ o ∈ y.2.ops c.env inp B, ∀ o' ∈ z.2.ops c.env inp B, Indep o o') ∨ (true = true ∧ y.1 = z.1 ∧ y.2.isOth = true ∧ z.2.isOth = true))
    (S := fun y z : CAct β => y.round < z.round ∨ Indep (y.op c.env inp) (z.op c.env inp) ∨ (y.round = z.round ∧ y.isOth = true ∧ z.isOth = true)) (by
      rintro y z (h | h | ⟨_, hr, h2, h3⟩)
      · exact Or.inl h
      · exact Or.inr (Or.inl (alloc_indep h))
      · right; right
        have key : ∀ it : CItem β, it.isOth = true → ∀ r, CAct.isOth ⟨r, allocItem B it⟩ = true := by
          intro it h r
          cases it with
          | act b => cases b with
            | comm => cases h
            | other => rfl
          | copyTo => cases h
          | rcomm => cases h
          | copyFrom => cases h
        exact ⟨hr, key _ h2 _, key _ h3 _⟩) (combGo_pairwise c.env inp B _ l [] 0 hl hb hs)) 0
  have e2 : runOps ((c.comb1 B l).map (CAct.op c.env inp)) s = runOps ((P.map (·.1)).map (CAct.op c.env inp)) s := by
    have := run_reorder (fun x : CAct β × Nat => [x.1.op c.env inp]) P (c.comb1 B l).zipIdx hperm (by
      intro x y hxy hyx _ a ha b hb'
      rw [List.mem_singleton] at ha hb'
      subst ha; subst hb'
      have hq := hp.sublist hxy
      have hi := (zipIdx_lt (c.comb1 B l) 0).sublist hxy
      have ho := hord.sublist hyx
      simp only [List.pairwise_cons, List.mem_singleton, forall_eq] at hq hi ho
      rcases hq.1 with h | h | ⟨hr, h1, h2⟩
      · exact absurd ho.1.1 (by omega)
      · exact h
      · have h3 := hi.1
        exact absurd (ho.1.2 hr.symm h2 h1) (by omega)) s
    have key : ∀ L : List (CAct β × Nat), L.flatMap (fun x => [x.1.op c.env inp]) = (L.map (·.1)).map (CAct.op c.env inp) := by
      intro L
      induction L with
      | nil => rfl
      | cons a L ih => rw [List.flatMap_cons, ih]; rfl
    rw [key, key, List.zipIdx_map_fst] at this
    exact this
  rw [← e2]
  have := e1 (combGo c.env [] 0 l).1 s
  unfold PCtx.comb1
  rw [← this]
  exact h1

/-! ### Keys and sizes of combined actions -/

/-- First occurrences of elements not in `seen`. -/
def firstsGo {κ : Type} [DecidableEq κ] : List κ → List κ → List κ
  | _, [] => []
  | seen, a :: l => if a ∈ seen then firstsGo seen l else a :: firstsGo (a :: seen) l

def firsts {κ : Type} [DecidableEq κ] (l : List κ) : List κ := firstsGo [] l

/-- Round and key of an action. -/
def akey (a : CAct β) : Option (Nat × CKey) :=
  match a.body with
  | .comm k _ _ _ => some (a.round, k)
  | .other _ => none

/-- Round, key and number of elements. -/
def amsg (a : CAct β) : Option (Nat × CKey × Nat) :=
  match a.body with
  | .comm k _ _ n => some (a.round, k, n)
  | .other _ => none

def total (l : List (CAct β)) (x : Nat × CKey) : Nat := sumCount (l.filter (CAct.same x.1 x.2))

theorem firstsGo_notin {κ : Type} [DecidableEq κ] (l : List κ) : ∀ seen, ∀ x ∈ firstsGo seen l, x ∉ seen ∧ x ∈ l := by
  induction l with
  | nil => intro seen x hx; cases hx
  | cons a l ih =>
    intro seen x hx
    rw [firstsGo] at hx
    split at hx
    · obtain ⟨h1, h2⟩ := ih seen x hx
      exact ⟨h1, List.mem_cons_of_mem _ h2⟩
    · rename_i c
      rcases List.mem_cons.1 hx with rfl | hx
      · exact ⟨c, List.mem_cons_self⟩
      · obtain ⟨h1, h2⟩ := ih _ x hx
        exact ⟨fun h => h1 (List.mem_cons_of_mem _ h), List.mem_cons_of_mem _ h2⟩

theorem firstsGo_nodup {κ : Type} [DecidableEq κ] (l : List κ) : ∀ seen, (firstsGo seen l).Nodup := by
  induction l with
  | nil => intro seen; exact List.nodup_nil
  | cons a l ih =>
    intro seen
    rw [firstsGo]
    split
    · exact ih seen
    · rw [List.nodup_cons]
      exact ⟨fun h => (firstsGo_notin l _ a h).1 List.mem_cons_self, ih _⟩

theorem firstsGo_mem {κ : Type} [DecidableEq κ] (l : List κ) : ∀ seen, ∀ x ∈ l, x ∉ seen → x ∈ firstsGo seen l := by
  induction l with
  | nil => intro seen x hx; cases hx
  | cons a l ih =>
    intro seen x hx hs
    rw [firstsGo]
    by_cases c : a ∈ seen
    · rw [if_pos c]
      rcases List.mem_cons.1 hx with rfl | hx
      · exact absurd c hs
      · exact ih seen x hx hs
    · rw [if_neg c]
      rcases List.mem_cons.1 hx with rfl | hx
      · exact List.mem_cons_self
      · by_cases ca : x = a
        · subst ca; exact List.mem_cons_self
        · exact List.mem_cons_of_mem _ (ih _ x hx (by simp [ca, hs]))

theorem mem_firsts {κ : Type} [DecidableEq κ] {l : List κ} {x : κ} : x ∈ firsts l ↔ x ∈ l :=
  ⟨fun h => (firstsGo_notin l [] x h).2, fun h => firstsGo_mem l [] x h (by simp)⟩

/-- First occurrences of some of the elements. -/
theorem firstsGo_filter {κ : Type} [DecidableEq κ] (P : κ → Bool) (l : List κ) : ∀ seen seen', (∀ x, P x = true → (x ∈ seen ↔ x ∈ seen')) →
    (firstsGo seen l).filter P = firstsGo seen' (l.filter P) := by
  induction l with
  | nil => intro seen seen' _; rfl
  | cons a l ih =>
    intro seen seen' h
    rw [firstsGo]
    by_cases cp : P a = true
    · rw [List.filter_cons_of_pos cp, firstsGo]
      by_cases c : a ∈ seen
      · rw [if_pos c, if_pos ((h a cp).1 c), ih seen seen' h]
      · rw [if_neg c, if_neg (fun hh => c ((h a cp).2 hh)), List.filter_cons_of_pos cp, ih (a :: seen) (a :: seen')]
        intro x hx
        rw [List.mem_cons, List.mem_cons, h x hx]
    · rw [List.filter_cons_of_neg cp]
      by_cases c : a ∈ seen
      · rw [if_pos c, ih seen seen' h]
      · rw [if_neg c, List.filter_cons_of_neg cp, ih (a :: seen) seen']
        intro x hx
        rw [List.mem_cons, ← h x hx]
        constructor
        · rintro (rfl | h)
          · exact absurd hx cp
          · exact h
        · exact Or.inr

theorem firsts_filter {κ : Type} [DecidableEq κ] (P : κ → Bool) (l : List κ) : (firsts l).filter P = firsts (l.filter P) :=
  firstsGo_filter P l [] [] (fun _ _ => Iff.rfl)

/-- First occurrences after a map which is injective on the list. -/
theorem firstsGo_map {κ κ' : Type} [DecidableEq κ] [DecidableEq κ'] (f : κ → κ') (l : List κ) : ∀ seen,
    (∀ x ∈ l, ∀ y, y ∈ l ∨ y ∈ seen → f x = f y → x = y) → firstsGo (seen.map f) (l.map f) = (firstsGo seen l).map f := by
  induction l with
  | nil => intro seen _; rfl
  | cons a l ih =>
    intro seen h
    rw [List.map_cons, firstsGo, firstsGo]
    have hi : f a ∈ seen.map f ↔ a ∈ seen := by
      constructor
      · intro hh
        obtain ⟨y, hy, e⟩ := List.mem_map.1 hh
        rw [h a List.mem_cons_self y (Or.inr hy) e.symm]
        exact hy
      · exact List.mem_map_of_mem
    by_cases c : a ∈ seen
    · rw [if_pos c, if_pos (hi.2 c)]
      apply ih
      intro x hx y hy
      exact h x (List.mem_cons_of_mem _ hx) y (hy.imp (List.mem_cons_of_mem _) id)
    · rw [if_neg c, if_neg (fun hh => c (hi.1 hh)), List.map_cons, ← ih (a :: seen)]
      · rfl
      · intro x hx y hy
        refine h x (List.mem_cons_of_mem _ hx) y ?_
        rcases hy with hy | hy
        · exact Or.inl (List.mem_cons_of_mem _ hy)
        · rcases List.mem_cons.1 hy with rfl | hy
          · exact Or.inl List.mem_cons_self
          · exact Or.inr hy

theorem firsts_map {κ κ' : Type} [DecidableEq κ] [DecidableEq κ'] (f : κ → κ') (l : List κ)
    (h : ∀ x ∈ l, ∀ y ∈ l, f x = f y → x = y) : firsts (l.map f) = (firsts l).map f :=
  firstsGo_map f l [] (fun x hx y hy e => h x hx y (hy.resolve_right (by simp)) e)

theorem total_cons (a : CAct β) (l : List (CAct β)) (x : Nat × CKey) :
    total (a :: l) x = (if a.same x.1 x.2 = true then a.count else 0) + total l x := by
  unfold total
  rw [List.filter_cons]
  split
  · simp [sumCount]
  · simp

theorem comb1_msgs_go (B : Nat) (e : CEnv) (l : List (CAct β)) : ∀ seen off,
    ((combGo e seen off l).1.map (fun y => (⟨y.1, allocItem B y.2⟩ : CAct β))).filterMap amsg =
      (firstsGo seen (l.filterMap akey)).map (fun x => (3 * x.1 + 1, x.2, total l x)) := by
  induction l with
  | nil => intro seen off; rfl
  | cons a l ih =>
    intro seen off
    cases hb : a.body with
    | other op =>
      have h1 : (a :: l).filterMap akey = l.filterMap akey := by rw [List.filterMap_cons]; simp [akey, hb]
      rw [h1, combGo]
      simp only [hb]
      rw [List.map_cons, List.filterMap_cons_none rfl, ih]
      apply List.map_congr_left
      intro x _
      rw [total_cons, if_neg (by simp [CAct.same, hb]), Nat.zero_add]
    | comm k s d n =>
      have h1 : (a :: l).filterMap akey = (a.round, k) :: l.filterMap akey := by rw [List.filterMap_cons]; simp [akey, hb]
      rw [h1, combGo, firstsGo]
      simp only [hb]
      by_cases c : (a.round, k) ∈ seen
      · rw [if_pos c, if_pos c, ih]
        apply List.map_congr_left
        intro x hx
        rw [total_cons, if_neg, Nat.zero_add]
        intro hs
        obtain ⟨e1, s', d', n', e2⟩ := same_iff.1 hs
        rw [hb] at e2
        injection e2 with e2
        apply (firstsGo_notin _ _ x hx).1
        rw [e1, e2] at c
        exact c
      · rw [if_neg c, if_neg c]
        have htail : ∀ seen', (firstsGo ((a.round, k) :: seen') (l.filterMap akey)).map (fun x => (3 * x.1 + 1, x.2, total l x)) =
            (firstsGo ((a.round, k) :: seen') (l.filterMap akey)).map (fun x => (3 * x.1 + 1, x.2, total (a :: l) x)) := by
          intro seen'
          apply List.map_congr_left
          intro x hx
          rw [total_cons, if_neg, Nat.zero_add]
          intro hs
          obtain ⟨e1, s', d', n', e2⟩ := same_iff.1 hs
          rw [hb] at e2
          injection e2 with e2
          apply (firstsGo_notin _ _ x hx).1
          rw [e1, e2]
          exact List.mem_cons_self
        have hh : a.same a.round k = true := same_iff.2 ⟨rfl, _, _, _, hb⟩
        have htot : total (a :: l) (a.round, k) = sumCount (a :: l.filter (CAct.same a.round k)) := by
          unfold total
          rw [List.filter_cons_of_pos hh]
        rw [List.map_cons, htot, ← htail]
        split
        · rename_i cl
          rw [List.map_append, List.filterMap_append, ih]
          have : ((emitGroup e a.round k off (a :: l.filter (CAct.same a.round k))).map (fun y => (⟨y.1, allocItem B y.2⟩ : CAct β))).filterMap amsg =
              [(3 * a.round + 1, k, sumCount (a :: l.filter (CAct.same a.round k)))] := by
            unfold emitGroup
            cases e.isIn k <;> cases e.isOut k <;> rfl
          rw [this]
          rfl
        · rename_i cl
          rw [List.map_cons, List.filterMap_cons_some (f := amsg) (b := (3 * a.round + 1, k, n)) rfl, ih]
          have hnil : l.filter (CAct.same a.round k) = [] := by
            apply List.length_eq_zero_iff.1
            simp only [List.length_cons] at cl
            omega
          rw [hnil]
          simp [sumCount, CAct.count, hb]

/-- One action per round and key is left, in the order of the first ones. -/
theorem comb1_msgs (c : PCtx β) (B : Nat) (l : List (CAct β)) :
    (c.comb1 B l).filterMap amsg = (firsts (l.filterMap akey)).map (fun x => (3 * x.1 + 1, x.2, total l x)) :=
  comb1_msgs_go B c.env l [] 0

/-- Kinds and rounds of the combined actions. -/
theorem combGo_shape (e : CEnv) (l : List (CAct β)) : ∀ seen off, ∀ y ∈ (combGo e seen off l).1, ∃ a ∈ l,
    (y.1 = 3 * a.round + 1 ∧ (y.2 = .act a.body ∨ ∃ k off n, y.2 = .rcomm k off n)) ∨
    (y.1 = 3 * a.round ∧ ∃ ce, y.2 = .copyTo ce) ∨ (y.1 = 3 * a.round + 2 ∧ ∃ ce, y.2 = .copyFrom ce) := by
  induction l with
  | nil => intro seen off y hy; simp [combGo] at hy
  | cons a l ih =>
    intro seen off y hy
    have lift : (∃ b ∈ l, (y.1 = 3 * b.round + 1 ∧ (y.2 = .act b.body ∨ ∃ k off n, y.2 = .rcomm k off n)) ∨
        (y.1 = 3 * b.round ∧ ∃ ce, y.2 = .copyTo ce) ∨ (y.1 = 3 * b.round + 2 ∧ ∃ ce, y.2 = .copyFrom ce)) →
        ∃ b ∈ a :: l, (y.1 = 3 * b.round + 1 ∧ (y.2 = .act b.body ∨ ∃ k off n, y.2 = .rcomm k off n)) ∨
        (y.1 = 3 * b.round ∧ ∃ ce, y.2 = .copyTo ce) ∨ (y.1 = 3 * b.round + 2 ∧ ∃ ce, y.2 = .copyFrom ce) := by
      rintro ⟨b, hb, h⟩
      exact ⟨b, List.mem_cons_of_mem _ hb, h⟩
    cases hb : a.body with
    | other op =>
      rw [combGo] at hy
      simp only [hb] at hy
      rcases List.mem_cons.1 hy with rfl | hy
      · exact ⟨a, List.mem_cons_self, Or.inl ⟨rfl, Or.inl (by rw [hb])⟩⟩
      · exact lift (ih _ _ y hy)
    | comm k s d n =>
      rw [combGo] at hy
      simp only [hb] at hy
      split at hy
      · exact lift (ih _ _ y hy)
      · split at hy
        · rcases List.mem_append.1 hy with hy | hy
          · refine ⟨a, List.mem_cons_self, ?_⟩
            rw [emitGroup, List.mem_append, List.mem_append] at hy
            rcases hy with (hy | hy) | hy
            · split at hy
              · rw [List.mem_singleton] at hy; subst hy; exact Or.inr (Or.inl ⟨rfl, _, rfl⟩)
              · simp at hy
            · rw [List.mem_singleton] at hy; subst hy; exact Or.inl ⟨rfl, Or.inr ⟨_, _, _, rfl⟩⟩
            · split at hy
              · rw [List.mem_singleton] at hy; subst hy; exact Or.inr (Or.inr ⟨rfl, _, rfl⟩)
              · simp at hy
          · exact lift (ih _ _ y hy)
        · rcases List.mem_cons.1 hy with rfl | hy
          · exact ⟨a, List.mem_cons_self, Or.inl ⟨rfl, Or.inl (by rw [hb])⟩⟩
          · exact lift (ih _ _ y hy)

theorem comb1_shape (c : PCtx β) (B : Nat) (l : List (CAct β)) : ∀ y ∈ c.comb1 B l, ∃ a ∈ l,
    (y.round = 3 * a.round + 1 ∧ (y.body = a.body ∨ ∃ k s n, y.body = .comm k s s n)) ∨
    ((y.round = 3 * a.round ∨ y.round = 3 * a.round + 2) ∧ ∃ op, y.body = .other op ∧ op.key = none) := by
  intro y hy
  obtain ⟨z, hz, rfl⟩ := List.mem_map.1 hy
  obtain ⟨a, ha, h⟩ := combGo_shape c.env l [] 0 z hz
  refine ⟨a, ha, ?_⟩
  rcases h with ⟨h1, h2 | ⟨k, off, n, h2⟩⟩ | ⟨h1, ce, h2⟩ | ⟨h1, ce, h2⟩
  · exact Or.inl ⟨h1, Or.inl (by simp only [h2, allocItem])⟩
  · exact Or.inl ⟨h1, Or.inr ⟨k, B + off, n, by simp only [h2, allocItem]⟩⟩
  · exact Or.inr ⟨Or.inl h1, _, by simp only [h2, allocItem]; rfl, rfl⟩
  · exact Or.inr ⟨Or.inr h1, _, by simp only [h2, allocItem]; rfl, rfl⟩

/-- Cells used by the combined actions. -/
theorem comb1_fp (c : PCtx β) (inp : CKey → Nat → β) (B : Nat) (l : List (CAct β)) : ∀ y ∈ c.comb1 B l,
    (∀ x, (y.op c.env inp).R x → (B ≤ x ∧ x < B + (combGo c.env [] 0 l).2 * c.es) ∨ ∃ a ∈ l, (a.op c.env inp).R x) ∧
    (∀ x, (y.op c.env inp).W x = true → (B ≤ x ∧ x < B + (combGo c.env [] 0 l).2 * c.es) ∨ ∃ a ∈ l, (a.op c.env inp).W x = true) := by
  intro y hy
  obtain ⟨z, hz, rfl⟩ := List.mem_map.1 hy
  obtain ⟨r, hf, _⟩ := combGo_fits c.env inp B l [] 0 z hz
  obtain ⟨a1, a2, _⟩ := allocItem_fp c.env inp B z.2
  have hs : ∀ x, Slice c.env B 0 (combGo c.env [] 0 l).2 x → B ≤ x ∧ x < B + (combGo c.env [] 0 l).2 * c.es := by
    intro x hx
    have h1 := hx.1
    have h2 := hx.2
    have h3 : c.env.elemsize = c.es := rfl
    rw [h3] at h1 h2
    exact ⟨by omega, h2⟩
  constructor
  · intro x hx
    obtain ⟨o, ho, h⟩ := a1 x hx
    rcases (hf.2.2 o ho).1 x h with h | ⟨g, h1, h2⟩
    · exact Or.inl (hs x h)
    · exact Or.inr ⟨g, h1.1, h2⟩
  · intro x hx
    obtain ⟨o, ho, h⟩ := a2 x hx
    rcases (hf.2.2 o ho).2.1 x h with h | ⟨g, h1, h2⟩
    · exact Or.inl (hs x h)
    · exact Or.inr ⟨g, h1.1, h2⟩

/-- Combined actions are independent, or in different rounds, or both other actions
of the same round. -/
theorem comb1_pairwise (c : PCtx β) (inp : CKey → Nat → β) (B : Nat) (l : List (CAct β)) {dep : Bool}
    (hl : l.Pairwise (SeqRel dep c.env inp))
    (hbuf : ∀ a ∈ l, ∀ x, B ≤ x → x < B + (combGo c.env [] 0 l).2 * c.es → ¬ (a.op c.env inp).R x ∧ (a.op c.env inp).W x = false) :
    (c.comb1 B l).Pairwise (fun y z => y.round < z.round ∨ Indep (y.op c.env inp) (z.op c.env inp) ∨
      (dep = true ∧ y.round = z.round ∧ y.isOth = true ∧ z.isOth = true)) := by
  have hs : ∀ x, Slice c.env B 0 (combGo c.env [] 0 l).2 x → B ≤ x ∧ x < B + (combGo c.env [] 0 l).2 * c.es := by
    intro x hx
    have h1 := hx.1
    have h2 := hx.2
    have h3 : c.env.elemsize = c.es := rfl
    rw [h3] at h1 h2
    exact ⟨by omega, h2⟩
  refine List.Pairwise.map (fun y => (⟨y.1, allocItem B y.2⟩ : CAct β)) ?_
    (combGo_pairwise c.env inp B _ l [] 0 hl (fun a ha x hx => hbuf a ha x hx.1 hx.2) hs)
  rintro y z (h | h | ⟨h0, hr, h2, h3⟩)
  · exact Or.inl h
  · exact Or.inr (Or.inl (alloc_indep h))
  · right; right
    have key : ∀ it : CItem β, it.isOth = true → ∀ r, CAct.isOth ⟨r, allocItem B it⟩ = true := by
      intro it h r
      cases it with
      | act b => cases b with
        | comm => cases h
        | other => rfl
      | copyTo => cases h
      | rcomm => cases h
      | copyFrom => cases h
    exact ⟨h0, hr, key _ h2 _, key _ h3 _⟩

end Laik.Mp
