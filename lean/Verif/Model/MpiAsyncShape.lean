import Verif.Model.MpiAsync
import Verif.Model.MpiRelabel
/-!
# Shape of programs with asynchronous communication

First all receives are posted, then all actions follow with sends posted and
waiting for the receives, then there is waiting for all sends.
-/

namespace Laik.Mp

open NX

variable {β : Type}

/-- Actions with request numbers. -/
def numGo : Nat → List (CBody β) → List (Nat × CBody β)
  | _, [] => []
  | id, b :: l => (id, b) :: numGo (if isP2p b then id + 1 else id) l

def irecvR (es : Nat) (x : Nat × CBody β) : Option AReq :=
  match x.2 with
  | .comm (.recv q) _ d cnt => some ⟨x.1, q, d, cnt * es⟩
  | _ => none

def isendR (es : Nat) (x : Nat × CBody β) : Option AReq :=
  match x.2 with
  | .comm (.send q) s _ cnt => some ⟨x.1, q, s, cnt * es⟩
  | _ => none

def PCtx.mainA (c : PCtx β) (x : Nat × CBody β) : AAct β :=
  match x.2 with
  | .comm (.send q) s _ cnt => .isend ⟨x.1, q, s, cnt * c.es⟩
  | .comm (.recv _) _ _ _ => .wait x.1
  | b => c.bexec b

/-- Posted receives, main part, waits for sends. -/
def PCtx.aprog (c : PCtx β) (K : List (Nat × CBody β)) : List (AAct β) :=
  (K.filterMap (irecvR c.es)).map .irecv ++ K.map c.mainA ++ (K.filterMap (isendR c.es)).map (fun r => .wait r.id)

/-! ### Stable sorting -/

section
variable {α : Type}

theorem sorted_unique {l : List (Act α)} {s Z : List (Act α × Nat)} (hs : IsPtrSort cmpRounds l s) (hz : Z.Perm l.zipIdx)
    (hp : Z.Pairwise (fun a b => cmpRounds a b ≤ 0)) : s = Z := by
  refine (hs.1.trans hz.symm).eq_of_pairwise (le := fun a b => cmpRounds a b ≤ 0) ?_ hs.2 hp
  intro a b ha hb h1 h2
  have hr1 := cmpRounds_round h1
  have hr2 := cmpRounds_round h2
  have e : a.2 = b.2 := by
    unfold cmpRounds at h1 h2
    rw [if_neg (by omega)] at h1 h2
    omega
  have ha' := List.mem_zipIdx_iff_getElem?.1 (hs.1.subset ha)
  have hb' := List.mem_zipIdx_iff_getElem?.1 (hz.subset hb)
  rw [e] at ha'
  rw [ha'] at hb'
  exact Prod.ext (Option.some.inj hb') e

theorem cmpRounds_le {a b : Act α × Nat} (h : a.1.round < b.1.round ∨ (a.1.round = b.1.round ∧ a.2 ≤ b.2)) : cmpRounds a b ≤ 0 := by
  unfold cmpRounds
  split <;> omega

theorem zip_filter_fst (P : Act α → Bool) (l : List (Act α)) (k : Nat) : ((l.zipIdx k).filter (fun x => P x.1)).map (·.1) = l.filter P := by
  induction l generalizing k with
  | nil => rfl
  | cons a l ih =>
    rw [List.zipIdx_cons, List.filter_cons, List.filter_cons]
    simp only
    split
    · rw [List.map_cons, ih]
    · rw [ih]

theorem zip_filter_sorted (P : Act α → Bool) {l : List (Act α)} (h : (l.filter P).Pairwise (fun a b => a.round ≤ b.round)) :
    (l.zipIdx.filter (fun x => P x.1)).Pairwise (fun a b => cmpRounds a b ≤ 0) := by
  rw [← zip_filter_fst P l 0, List.pairwise_map] at h
  have h2 : (l.zipIdx.filter (fun x => P x.1)).Pairwise (fun a b => a.2 < b.2) := (zipIdx_lt l 0).sublist List.filter_sublist
  refine (h.and h2).imp ?_
  rintro a b ⟨h1, h2⟩
  exact cmpRounds_le (by omega)

/-- Sorting by rounds of a list with three classes of increasing rounds. -/
theorem stable3 {l : List (Act α)} {s : List (Act α × Nat)} (hs : IsPtrSort cmpRounds l s) (lo hi : Nat) (hlh : lo ≤ hi)
    (h0 : (l.filter (fun a => decide (a.round < lo))).Pairwise (fun a b => a.round ≤ b.round))
    (h1 : (l.filter (fun a => decide (lo ≤ a.round ∧ a.round < hi))).Pairwise (fun a b => a.round ≤ b.round))
    (h2 : (l.filter (fun a => decide (hi ≤ a.round))).Pairwise (fun a b => a.round ≤ b.round)) :
    s.map (·.1) = l.filter (fun a => decide (a.round < lo)) ++ l.filter (fun a => decide (lo ≤ a.round ∧ a.round < hi)) ++ l.filter (fun a => decide (hi ≤ a.round)) := by
  have hZ : s = l.zipIdx.filter (fun x => decide (x.1.round < lo)) ++ l.zipIdx.filter (fun x => decide (lo ≤ x.1.round ∧ x.1.round < hi)) ++
      l.zipIdx.filter (fun x => decide (hi ≤ x.1.round)) := by
    apply sorted_unique hs
    · have a1 := List.filter_append_perm (fun x : Act α × Nat => decide (x.1.round < lo)) l.zipIdx
      have a2 := List.filter_append_perm (fun x : Act α × Nat => decide (x.1.round < hi)) (l.zipIdx.filter (fun x => !decide (x.1.round < lo)))
      refine List.Perm.trans ?_ a1
      rw [List.append_assoc]
      refine List.Perm.append_left _ (List.Perm.trans ?_ a2)
      rw [List.filter_filter, List.filter_filter]
      apply List.Perm.of_eq
      congr 1
      · apply List.filter_congr
        intro x _
        rw [Bool.eq_iff_iff]
        simp only [decide_eq_true_eq, Bool.and_eq_true, Bool.not_eq_true', decide_eq_false_iff_not]
        omega
      · apply List.filter_congr
        intro x _
        rw [Bool.eq_iff_iff]
        simp only [decide_eq_true_eq, Bool.and_eq_true, Bool.not_eq_true', decide_eq_false_iff_not]
        omega
    · rw [List.pairwise_append, List.pairwise_append]
      refine ⟨⟨zip_filter_sorted (fun a => decide (a.round < lo)) h0, zip_filter_sorted (fun a => decide (lo ≤ a.round ∧ a.round < hi)) h1, ?_⟩,
        zip_filter_sorted (fun a => decide (hi ≤ a.round)) h2, ?_⟩
      · intro a ha b hb
        have ha := (List.mem_filter.1 ha).2
        have hb := (List.mem_filter.1 hb).2
        simp only [decide_eq_true_eq] at ha hb
        exact cmpRounds_le (by omega)
      · intro a ha b hb
        have hb := (List.mem_filter.1 hb).2
        simp only [decide_eq_true_eq] at hb
        rcases List.mem_append.1 ha with ha | ha <;>
        · have ha := (List.mem_filter.1 ha).2
          simp only [decide_eq_true_eq] at ha
          exact cmpRounds_le (by omega)
  rw [hZ, List.map_append, List.map_append, zip_filter_fst (fun a => decide (a.round < lo)), zip_filter_fst (fun a => decide (lo ≤ a.round ∧ a.round < hi)),
    zip_filter_fst (fun a => decide (hi ≤ a.round))]

theorem sortSeq_content {cmp : Act α × Nat → Act α × Nat → Int} (hc : ∀ a b, cmp a b ≤ 0 → a.1.round ≤ b.1.round) {l : List (Act α)} {s : List (Act α × Nat)}
    (hs : IsPtrSort cmp l s) {r : List (Act α)} (hr : sortSeq l s = some r) :
    r.map (·.content) = s.map (fun x => x.1.content) ∧ r.Pairwise (fun a b => a.round ≤ b.round) := by
  have hp : (s.map (·.1)).Pairwise (fun a b => a.round ≤ b.round) := by
    rw [List.pairwise_map]
    exact hs.2.imp (hc _ _)
  unfold sortSeq at hr
  split at hr
  · rename_i h0
    cases hr
    subst h0
    have h1 := hs.1
    rw [List.zipIdx_nil, List.perm_nil] at h1
    subst h1
    exact ⟨rfl, List.Pairwise.nil⟩
  · split at hr
    · rename_i hrange
      cases hr
      have hs' : s = l.zipIdx := by
        refine hs.1.eq_of_pairwise (le := fun x y => x.2 < y.2) ?_ ?_ (zipIdx_lt l 0)
        · intro a b _ _ h1 h2; omega
        · have : (s.map (·.2)).Pairwise (· < ·) := by
            rw [hrange]
            exact List.pairwise_lt_range
          rw [List.pairwise_map] at this
          exact this
      have e : s.map (·.1) = l := by rw [hs', List.zipIdx_map_fst]
      refine ⟨?_, e ▸ hp⟩
      conv_lhs => rw [← e]
      rw [List.map_map]
      rfl
    · rename_i h0 _
      have hne : s.map (·.1) ≠ [] := by
        intro h1
        have h2 := List.map_eq_nil_iff.1 h1
        have h3 := hs.1
        rw [h2] at h3
        have h4 := List.nil_perm.1 h3
        apply h0
        rw [← List.zipIdx_map_fst 0 l, h4]
        rfl
      obtain ⟨f, h1, h2, _⟩ := addResorted_spec _ hne hp
      rw [h1] at hr
      cases hr
      refine ⟨?_, ?_⟩
      · rw [List.map_map, List.map_map]
        rfl
      · rw [List.pairwise_map]
        refine hp.imp_of_mem ?_
        intro a b ha hb h
        show f a.round ≤ f b.round
        by_contra c
        have := (h2 b hb a ha).2 (by omega)
        omega
end

/-! ### The transformation -/

theorem aexec_body (c : PCtx β) (b : CBody β) : c.aexec (.body b) = some (c.bexec b) := rfl
theorem aexec_isend (c : PCtx β) (i q s n : Nat) : c.aexec (.isend i q s n) = some (.isend ⟨i, q, s, n * c.es⟩) := rfl
theorem aexec_irecv (c : PCtx β) (i q s n : Nat) : c.aexec (.irecv i q s n) = some (.irecv ⟨i, q, s, n * c.es⟩) := rfl
theorem aexec_wait (c : PCtx β) (i : Nat) : c.aexec (.wait i) = some (.wait i) := rfl
theorem aexec_req (c : PCtx β) (i : Nat) : c.aexec (.req i) = none := rfl

theorem maxRound_le (l : List (Act (CBody β))) : ∀ a ∈ l, a.round ≤ maxRound l := by
  have key : ∀ (l : List (Act (CBody β))) m, m ≤ l.foldl (fun m a => max m a.round) m ∧ ∀ a ∈ l, a.round ≤ l.foldl (fun m a => max m a.round) m := by
    intro l
    induction l with
    | nil => intro m; exact ⟨Nat.le_refl _, by simp⟩
    | cons a l ih =>
      intro m
      obtain ⟨h1, h2⟩ := ih (max m a.round)
      simp only [List.foldl_cons]
      refine ⟨by omega, ?_⟩
      intro b hb
      rcases List.mem_cons.1 hb with rfl | hb
      · omega
      · exact h2 b hb
  exact (key l 0).2

/-- Classes of the new sequence. -/
def Classes (c : PCtx β) (mr id : Nat) (l : List (Act (CBody β))) : Prop :=
    ((asyncGo mr id l).filter (fun a => decide (a.round < 1))).filterMap (fun a => c.aexec a.content) =
      ((numGo id (l.map (·.content))).filterMap (irecvR c.es)).map .irecv ∧
    ((asyncGo mr id l).filter (fun a => decide (1 ≤ a.round ∧ a.round < mr + 2))).filterMap (fun a => c.aexec a.content) = (numGo id (l.map (·.content))).map c.mainA ∧
    ((asyncGo mr id l).filter (fun a => decide (mr + 2 ≤ a.round))).filterMap (fun a => c.aexec a.content) =
      ((numGo id (l.map (·.content))).filterMap (isendR c.es)).map (fun r => .wait r.id) ∧
    ((asyncGo mr id l).filter (fun a => decide (1 ≤ a.round ∧ a.round < mr + 2))).Pairwise (fun a b => a.round ≤ b.round) ∧
    (∀ a ∈ asyncGo mr id l, a.round ≤ mr + 2) ∧
    (∀ r, (∀ a ∈ l, r ≤ a.round) → ∀ a ∈ (asyncGo mr id l).filter (fun a => decide (1 ≤ a.round ∧ a.round < mr + 2)), r + 1 ≤ a.round)

theorem asyncGo_classes (c : PCtx β) (mr : Nat) (l : List (Act (CBody β))) : ∀ id, (∀ a ∈ l, a.round ≤ mr) → l.Pairwise (fun a b => a.round ≤ b.round) →
    Classes c mr id l := by
  induction l with
  | nil => intro id _ _; exact ⟨rfl, rfl, rfl, List.Pairwise.nil, by simp [asyncGo], by simp [asyncGo]⟩
  | cons a l ih =>
    intro id hm hp
    rw [List.pairwise_cons] at hp
    have hma := hm a List.mem_cons_self
    have hm' : ∀ b ∈ l, b.round ≤ mr := fun b hb => hm b (List.mem_cons_of_mem _ hb)
    have step : ∀ id', (∀ r, (∀ b ∈ l, r ≤ b.round) → ∀ b ∈ (asyncGo mr id' l).filter (fun a => decide (1 ≤ a.round ∧ a.round < mr + 2)), r + 1 ≤ b.round) →
        ∀ b ∈ (asyncGo mr id' l).filter (fun a => decide (1 ≤ a.round ∧ a.round < mr + 2)), a.round + 1 ≤ b.round := fun id' h => h a.round hp.1
    have d1 : ¬ (a.round + 1 < 1) := by omega
    have d2 : 1 ≤ a.round + 1 ∧ a.round + 1 < mr + 2 := by omega
    have d3 : ¬ (mr + 2 ≤ a.round + 1) := by omega
    have d4 : ¬ (mr + 2 < 1) := by omega
    have d5 : ¬ (1 ≤ mr + 2 ∧ mr + 2 < mr + 2) := by omega
    have d6 : mr + 2 ≤ mr + 2 := Nat.le_refl _
    have d7 : (0 : Nat) < 1 := by omega
    have d8 : ¬ (1 ≤ 0 ∧ 0 < mr + 2) := by omega
    have d9 : ¬ (mr + 2 ≤ 0) := by omega
    have gen : ∀ b, a.content = b → isP2p b = false → c.mainA (id, b) = c.bexec b → irecvR c.es (id, b) = none → isendR c.es (id, b) = none →
        asyncGo mr id (a :: l) = ⟨a.round + 1, .other, .body b⟩ :: asyncGo mr id l → Classes c mr id (a :: l) := by
      intro b hb h2 h3 h4 h5 h6
      obtain ⟨i1, i2, i3, i4, i5, i6⟩ := ih id hm' hp.2
      unfold Classes
      rw [h6]
      simp only [List.filter_cons, d1, d2, d3, decide_true, decide_false, if_true, Bool.false_eq_true, if_false, List.map_cons, numGo, hb, h2, List.filterMap_cons,
        h4, h5, i1, i2, i3, aexec_body, h3, and_self]
      refine ⟨trivial, trivial, trivial, ?_, ?_, ?_⟩
      · exact List.pairwise_cons.2 ⟨step id i6, i4⟩
      · intro x hx
        rcases List.mem_cons.1 hx with rfl | hx
        · show a.round + 1 ≤ _; omega
        · exact i5 x hx
      · intro r hr x hx
        rcases List.mem_cons.1 hx with rfl | hx
        · have := hr a List.mem_cons_self; show r + 1 ≤ a.round + 1; omega
        · exact i6 r (fun b hb => hr b (List.mem_cons_of_mem _ hb)) x hx
    cases hb : a.content with
    | other op =>
      exact gen (.other op) hb rfl rfl rfl rfl (by rw [asyncGo, hb])
    | comm k s d n =>
      cases k with
      | gred i o op => exact gen _ hb rfl rfl rfl rfl (by rw [asyncGo, hb])
      | red i op => exact gen _ hb rfl rfl rfl rfl (by rw [asyncGo, hb])
      | send q =>
        obtain ⟨i1, i2, i3, i4, i5, i6⟩ := ih (id + 1) hm' hp.2
        have h6 : asyncGo mr id (a :: l) = ⟨a.round + 1, .other, .isend id q s n⟩ :: ⟨mr + 2, .other, .wait id⟩ :: asyncGo mr (id + 1) l := by rw [asyncGo, hb]
        unfold Classes
        rw [h6]
        simp only [List.filter_cons, d1, d2, d3, d4, d5, d6, decide_true, decide_false, if_true, Bool.false_eq_true, if_false, List.map_cons, numGo, hb, isP2p,
          List.filterMap_cons, irecvR, isendR, i1, i2, i3, aexec_isend, aexec_irecv, aexec_wait, PCtx.mainA, and_self]
        refine ⟨trivial, trivial, trivial, ?_, ?_, ?_⟩
        · exact List.pairwise_cons.2 ⟨step _ i6, i4⟩
        · intro x hx
          rcases List.mem_cons.1 hx with rfl | hx
          · show a.round + 1 ≤ _; omega
          · rcases List.mem_cons.1 hx with rfl | hx
            · exact Nat.le_refl _
            · exact i5 x hx
        · intro r hr x hx
          rcases List.mem_cons.1 hx with rfl | hx
          · have := hr a List.mem_cons_self; show r + 1 ≤ a.round + 1; omega
          · exact i6 r (fun b hb => hr b (List.mem_cons_of_mem _ hb)) x hx
      | recv q =>
        obtain ⟨i1, i2, i3, i4, i5, i6⟩ := ih (id + 1) hm' hp.2
        have h6 : asyncGo mr id (a :: l) = ⟨0, .other, .irecv id q d n⟩ :: ⟨a.round + 1, .other, .wait id⟩ :: asyncGo mr (id + 1) l := by rw [asyncGo, hb]
        unfold Classes
        rw [h6]
        simp only [List.filter_cons, d1, d2, d3, d7, d8, d9, decide_true, decide_false, if_true, Bool.false_eq_true, if_false, List.map_cons, numGo, hb, isP2p,
          List.filterMap_cons, irecvR, isendR, i1, i2, i3, aexec_isend, aexec_irecv, aexec_wait, PCtx.mainA, and_self]
        refine ⟨trivial, trivial, trivial, ?_, ?_, ?_⟩
        · exact List.pairwise_cons.2 ⟨step _ i6, i4⟩
        · intro x hx
          rcases List.mem_cons.1 hx with rfl | hx
          · exact Nat.zero_le _
          · rcases List.mem_cons.1 hx with rfl | hx
            · show a.round + 1 ≤ _; omega
            · exact i5 x hx
        · intro r hr x hx
          rcases List.mem_cons.1 hx with rfl | hx
          · have := hr a List.mem_cons_self; show r + 1 ≤ a.round + 1; omega
          · exact i6 r (fun b hb => hr b (List.mem_cons_of_mem _ hb)) x hx

theorem numGo_none (c : PCtx β) (l : List (CBody β)) : ∀ id, (∀ b ∈ l, isP2p b = false) → c.aprog (numGo id l) = l.map c.bexec := by
  induction l with
  | nil => intro id _; rfl
  | cons b l ih =>
    intro id h
    have h1 := h b List.mem_cons_self
    have e := ih (if isP2p b then id + 1 else id) (fun x hx => h x (List.mem_cons_of_mem _ hx))
    have n1 : irecvR c.es (id, b) = none := by
      cases b with
      | other op => rfl
      | comm k s d n => cases k <;> first | rfl | (exact absurd h1 (by simp [isP2p]))
    have n2 : isendR c.es (id, b) = none := by
      cases b with
      | other op => rfl
      | comm k s d n => cases k <;> first | rfl | (exact absurd h1 (by simp [isP2p]))
    have n3 : c.mainA (id, b) = c.bexec b := by
      cases b with
      | other op => rfl
      | comm k s d n => cases k <;> first | rfl | (exact absurd h1 (by simp [isP2p]))
    have nil1 : ∀ (l : List (CBody β)) id, (∀ b ∈ l, isP2p b = false) → (numGo id l).filterMap (irecvR c.es) = [] := by
      intro l
      induction l with
      | nil => intro id _; rfl
      | cons b l ih =>
        intro id h
        have h1 := h b List.mem_cons_self
        rw [numGo, List.filterMap_cons_none, ih _ (fun x hx => h x (List.mem_cons_of_mem _ hx))]
        cases b with
        | other op => rfl
        | comm k s d n => cases k <;> first | rfl | (exact absurd h1 (by simp [isP2p]))
    unfold PCtx.aprog at e ⊢
    rw [nil1 _ _ (fun x hx => h x (List.mem_cons_of_mem _ hx))] at e
    rw [numGo, List.filterMap_cons_none n1, List.filterMap_cons_none n2, List.map_cons, List.map_cons, n3, nil1 _ _ (fun x hx => h x (List.mem_cons_of_mem _ hx))]
    simp only [List.map_nil, List.nil_append, List.cons_append] at e ⊢
    rw [e]

/-- Programs with asynchronous communication. -/
theorem PCtx.AsyncPrepared.shape {c : PCtx β} {inUse : Nat → Prop} {B1 B2 B3 : Nat} {ops : List TOp} {prog : List (ABody β)}
    (h : c.AsyncPrepared inUse B1 B2 B3 ops prog) : ∃ p1, c.Prepared inUse B1 B2 B3 ops p1 ∧ prog.filterMap c.aexec = c.aprog (numGo 0 p1) := by
  obtain ⟨l5, s, r, h1, h2, h3, rfl⟩ := h
  refine ⟨l5.map (·.content), ⟨l5, h1, rfl⟩, ?_⟩
  obtain ⟨_, _, _, _, _, _, l4, s2, _, _, _, _, _, _, _, _, _, _, h8, h9⟩ := h1
  have hsort := (sortSeq_content (fun _ _ => cmp2phase_round) h8 h9).2
  have hc := (sortSeq_content (fun _ _ => cmpRounds_round) h2 h3).1
  rw [hc]
  by_cases c0 : (l5.filter (fun a => isP2p a.content)).length = 0
  · have e : asyncSeq l5 = l5.map (fun a => ⟨a.round, a.kind, .body a.content⟩) := by unfold asyncSeq; exact if_pos c0
    rw [e] at h2
    have hp : (l5.map (fun a => (⟨a.round, a.kind, .body a.content⟩ : Act (ABody β)))).Pairwise (fun a b => a.round ≤ b.round) := by
      rw [List.pairwise_map]
      exact hsort
    have hs := stable3 h2 0 0 (Nat.le_refl _) (hp.sublist List.filter_sublist) (hp.sublist List.filter_sublist) (hp.sublist List.filter_sublist)
    have e2 : s.map (fun x => x.1.content) = (s.map (·.1)).map (·.content) := by rw [List.map_map]; rfl
    rw [e2, hs]
    have hn : ∀ b ∈ l5.map (·.content), isP2p b = false := by
      intro b hb
      obtain ⟨a, ha, rfl⟩ := List.mem_map.1 hb
      have := List.filter_eq_nil_iff.1 (List.length_eq_zero_iff.1 c0) a ha
      simpa using this
    rw [numGo_none c _ 0 hn]
    have f1 : ∀ l : List (Act (ABody β)), l.filter (fun a => decide (a.round < 0)) = [] := fun l => List.filter_eq_nil_iff.2 (by simp)
    have f2 : ∀ l : List (Act (ABody β)), l.filter (fun a => decide (0 ≤ a.round ∧ a.round < 0)) = [] := fun l => List.filter_eq_nil_iff.2 (by simp)
    have f3 : ∀ l : List (Act (ABody β)), l.filter (fun a => decide (0 ≤ a.round)) = l := fun l => List.filter_eq_self.2 (by simp)
    rw [f1, f2, f3, List.nil_append, List.nil_append, List.map_map, List.filterMap_map, List.map_map]
    rw [← List.filterMap_eq_map]
    rfl
  · have e : asyncSeq l5 = ⟨0, .other, .req (l5.filter (fun a => isP2p a.content)).length⟩ :: asyncGo (maxRound l5) 0 l5 := by
      unfold asyncSeq; exact if_neg c0
    obtain ⟨i1, i2, i3, i4, i5, _⟩ := asyncGo_classes c (maxRound l5) l5 0 (maxRound_le l5) hsort
    rw [e] at h2
    have d2 : ¬ (1 ≤ 0 ∧ 0 < maxRound l5 + 2) := by omega
    have d3 : ¬ (maxRound l5 + 2 ≤ 0) := by omega
    have hs := stable3 h2 1 (maxRound l5 + 2) (by omega) (List.pairwise_of_forall_mem_list (fun a ha b hb => by
        have ha := (List.mem_filter.1 ha).2
        simp only [decide_eq_true_eq] at ha
        omega))
      (by
        rw [List.filter_cons]
        simp only [d2, decide_false, Bool.false_eq_true, if_false]
        exact i4)
      (by
        rw [List.filter_cons]
        simp only [d3, decide_false, Bool.false_eq_true, if_false]
        exact List.pairwise_of_forall_mem_list (fun a ha b hb => by
          have ha := i5 a (List.mem_filter.1 ha).1
          have hb := (List.mem_filter.1 hb).2
          simp only [decide_eq_true_eq] at hb
          omega))
    have e2 : s.map (fun x => x.1.content) = (s.map (·.1)).map (·.content) := by rw [List.map_map]; rfl
    rw [e2, hs]
    have d1 : (0 : Nat) < 1 := by omega
    simp only [List.filter_cons, d1, d2, d3, decide_true, decide_false, Bool.false_eq_true, if_true, if_false]
    rw [List.filterMap_map, List.filterMap_append, List.filterMap_append, List.filterMap_cons]
    simp only [Function.comp_def, aexec_req]
    unfold PCtx.aprog
    rw [← i1, ← i2, ← i3]

end Laik.Mp
