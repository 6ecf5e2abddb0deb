import Verif.Model.TcpResizeBuild
import Mathlib.Data.List.Perm.Basic
/-!
# Lemmas on the messages and the master in a resize
-/

namespace Laik.Rsz

variable {role : Nat → Role} {n : Nat}

/-! ### Members -/

theorem members_getElem? {k : Nat} (hk : k < n) (hr : role k = .stay ∨ role k = .fresh) :
    (members role n)[(members role k).length]? = some k := by
  induction n with
  | zero => omega
  | succ n ih =>
    rw [members_succ]
    by_cases h : k = n
    · subst h
      rw [List.getElem?_append_right (Nat.le_refl _)]
      simp [hr]
    · have := ih (by omega)
      rw [List.getElem?_append_left]
      · exact this
      · obtain ⟨h1, -⟩ := List.getElem?_eq_some_iff.1 this
        exact h1

theorem members_nodup : (members role n).Nodup := List.Nodup.filter _ List.nodup_range
theorem olds_nodup : (olds role n).Nodup := List.Nodup.filter _ List.nodup_range

theorem members_idxOf {k : Nat} (hk : k < n) (hr : role k = .stay ∨ role k = .fresh) :
    (members role n).idxOf k = (members role k).length := by
  have h := members_getElem? hk hr
  obtain ⟨h1, h2⟩ := List.getElem?_eq_some_iff.1 h
  have := List.Nodup.idxOf_getElem (members_nodup (role := role) (n := n)) _ h1
  rw [h2] at this
  exact this

theorem len_split (role : Nat → Role) (n : Nat) :
    (olds role n).length + ((List.range n).filter fun l => role l = .fresh).length =
    (members role n).length + ((List.range n).filter fun l => role l = .leave).length := by
  induction n with
  | zero => simp [olds, members]
  | succ n ih =>
    rw [olds_succ, members_succ, List.range_succ, List.filter_append, List.filter_append]
    simp only [List.length_append]
    cases hr : role n <;> simp [hr] <;> omega

theorem len_gone (role : Nat → Role) (n : Nat) :
    (olds role n).length + ((List.range n).filter fun l => role l = .fresh).length +
    ((List.range n).filter fun l => role l = .gone).length = n := by
  induction n with
  | zero => simp [olds]
  | succ n ih =>
    rw [olds_succ, List.range_succ, List.filter_append, List.filter_append]
    simp only [List.length_append]
    cases hr : role n <;> simp [hr] <;> omega

/-! ### Commands received -/

theorem recvAll_append : ∀ (a : List Cmd) (p : Proc) (b : List Cmd),
    recvAll p (a ++ b) = (recvAll p a).bind fun p' => recvAll p' b := by
  intro a
  induction a with
  | nil => intro p b; rfl
  | cons c a ih =>
    intro p b
    simp only [List.cons_append, recvAll]
    cases recv p c with
    | none => rfl
    | some p' => exact ih p' b

/-- Result of information on LIDs `ls`. -/
def afterIds (p : Proc) (new : Bool) (ls : List Nat) : Proc :=
  { p with n := ls.foldl (fun n l => max n (l + 1)) p.n, peers := p.peers + ls.length,
           known := fun l => decide (l ∈ ls) || p.known l,
           st := fun l => if l ∈ ls then (if new then .noConnect else .inResize) else p.st l }

theorem recv_ids {new : Bool} : ∀ (ls : List Nat) (p : Proc) (me : Nat), p.mylid = some me →
    (p.mystate = .regAccepted ∨ (p.mystate = .inResize ∧ new = true)) → ls.Nodup →
    (∀ l ∈ ls, l < maxPeers ∧ l ≠ me ∧ p.known l = false) →
    recvAll p (ls.map (.id · new)) = some (afterIds p new ls) := by
  intro ls
  induction ls with
  | nil => intro p me _ _ _ _; simp [recvAll, afterIds]
  | cons a ls ih =>
    intro p me h1 h2 h3 h4
    obtain ⟨b1, b2, b3⟩ := h4 a (by simp)
    have hrec : recv p (.id a new) = some (afterIds p new [a]) := by
      have e1 : upd p.known a true = fun l => decide (l ∈ [a]) || p.known l := by
        funext l; unfold upd; by_cases h : l = a <;> simp [h]
      have e2 : upd p.st a (if new then PS.noConnect else .inResize) =
          fun l => if l ∈ [a] then (if new then .noConnect else .inResize) else p.st l := by
        funext l; unfold upd; by_cases h : l = a <;> simp [h]
      simp only [recv, h1]
      rw [if_neg (fun h => h b1), if_neg (by rw [b3]; simp [b2])]
      rcases h2 with h2 | ⟨h2, h5⟩
      · rw [if_pos h2, e1, e2, ← h1]; rfl
      · rw [if_neg (by rw [h2]; decide), if_pos ⟨h2, h5⟩]
        rw [h5] at e2
        rw [if_pos rfl] at e2
        rw [e1, e2, h5, ← h1]; rfl
    simp only [List.map_cons, recvAll, hrec, Option.bind_some]
    rw [ih (afterIds p new [a]) me h1 h2 (List.nodup_cons.1 h3).2 ?_]
    · congr 1
      unfold afterIds
      have k1 : ∀ l, l ∈ a :: ls ↔ l ∈ ls ∨ l ∈ [a] := by intro l; simp [or_comm]
      simp only [List.foldl_cons, List.foldl_nil, List.length_cons, List.length_nil]
      congr 1
      · funext l
        by_cases h : l ∈ ls
        · simp [h]
        · simp [h]
      · funext l
        by_cases h : l ∈ ls
        · simp [h]
        · simp [h]
      · omega
    · intro l hl
      obtain ⟨c1, c2, c3⟩ := h4 l (List.mem_cons_of_mem _ hl)
      refine ⟨c1, c2, ?_⟩
      have : l ≠ a := fun h => (List.nodup_cons.1 h3).1 (h ▸ hl)
      simp [afterIds, this, c3]

/-- Result of `backedout` for LIDs `ls`. -/
def afterBack (p : Proc) (ls : List Nat) : Proc :=
  { p with st := fun l => if l ∈ ls then .inResizeRemove else p.st l
           mystate := if p.mylid.any (fun me => decide (me ∈ ls)) then .inResizeRemove else p.mystate }

theorem recv_back : ∀ (ls : List Nat) (p : Proc),
    (p.mystate = .regAccepted ∨ p.mystate = .inResize ∨ p.mystate = .inResizeRemove) → ls.Nodup →
    (∀ l ∈ ls, 0 < l ∧ l < p.n ∧ (p.st l = .inResize ∨ p.st l = .ready)) →
    recvAll p (ls.map .backedout) = some (afterBack p ls) := by
  intro ls
  induction ls with
  | nil =>
    intro p _ _ _
    simp only [recvAll, afterBack, List.map_nil]
    have : p.mylid.any (fun me => decide (me ∈ ([] : List Nat))) = false := by cases p.mylid <;> simp
    simp [this]
  | cons a ls ih =>
    intro p h2 h3 h4
    have b := h4 a (by simp)
    have hrec : recv p (.backedout a) = some (afterBack p [a]) := by
      simp only [recv]
      rw [if_pos h2, if_pos b]
      unfold afterBack
      congr 2
      · cases p.mylid with
        | none => simp
        | some me => by_cases h : me = a <;> simp [h]
      · funext l; unfold upd; by_cases h : l = a <;> simp [h]
    simp only [List.map_cons, recvAll, hrec, Option.bind_some]
    rw [ih _ ?_ (List.nodup_cons.1 h3).2 ?_]
    · congr 1
      unfold afterBack
      congr 1
      · cases p.mylid with
        | none => simp
        | some me =>
          by_cases h : me = a
          · simp [h]
          · by_cases h' : me ∈ ls <;> simp [h, h']
      · funext l
        by_cases h : l ∈ ls
        · simp [h]
        · by_cases h' : l = a <;> simp [h, h']
    · unfold afterBack
      dsimp only
      split
      · exact .inr (.inr rfl)
      · exact h2
    · intro l hl
      obtain ⟨c1, c2, c3⟩ := h4 l (List.mem_cons_of_mem _ hl)
      refine ⟨c1, c2, ?_⟩
      have : l ≠ a := fun h => (List.nodup_cons.1 h3).1 (h ▸ hl)
      simp [afterBack, this, c3]

theorem foldmax_le : ∀ (ls : List Nat) (a B : Nat), a ≤ B → (∀ l ∈ ls, l < B) →
    ls.foldl (fun n l => max n (l + 1)) a ≤ B := by
  intro ls
  induction ls with
  | nil => intro a B h _; exact h
  | cons x ls ih =>
    intro a B h h1
    rw [List.foldl_cons]
    refine ih _ _ ?_ (fun l hl => h1 l (List.mem_cons_of_mem _ hl))
    have := h1 x (by simp)
    omega

theorem le_foldmax : ∀ (ls : List Nat) (a : Nat), a ≤ ls.foldl (fun n l => max n (l + 1)) a := by
  intro ls
  induction ls with
  | nil => intro a; exact Nat.le_refl _
  | cons x ls ih =>
    intro a
    rw [List.foldl_cons]
    exact Nat.le_trans (by omega) (ih _)

theorem mem_foldmax : ∀ (ls : List Nat) (a l : Nat), l ∈ ls →
    l < ls.foldl (fun n l => max n (l + 1)) a := by
  intro ls
  induction ls with
  | nil => intro a l h; simp at h
  | cons x ls ih =>
    intro a l h
    rw [List.foldl_cons]
    rcases List.mem_cons.1 h with h | h
    · subst h
      exact Nat.lt_of_lt_of_le (by omega) (le_foldmax _ _)
    · exact ih _ _ h

/-! ### The master -/

theorem enterAll_spec : ∀ (o : List Nat) (st : Nat → PS), o.Nodup →
    (∀ l ∈ o, l < maxPeers ∧ st l = .ready) →
    enterAll st o = some fun l => if l ∈ o then .inResize else st l := by
  intro o
  induction o with
  | nil => intro st _ _; simp [enterAll]
  | cons a o ih =>
    intro st h1 h2
    obtain ⟨b1, b2⟩ := h2 a (by simp)
    simp only [enterAll]
    rw [if_pos ⟨b1, b2⟩, ih _ (List.nodup_cons.1 h1).2 ?_]
    · congr 1
      funext l
      unfold upd
      by_cases h : l = a
      · simp [h]
      · simp [h]
    · intro l hl
      obtain ⟨c1, c2⟩ := h2 l (List.mem_cons_of_mem _ hl)
      refine ⟨c1, ?_⟩
      have : l ≠ a := fun h => (List.nodup_cons.1 h1).1 (h ▸ hl)
      simp [upd, this, c2]

theorem doReqs_spec : ∀ (reqs : List Req) (n : Nat) (st : Nat → PS), (rms reqs).Nodup →
    (∀ l ∈ rms reqs, l < n ∧ st l = .inResize) → n + joins reqs ≤ maxPeers →
    doReqs n st reqs = some (n + joins reqs, fun l => if l ∈ rms reqs then .inResizeRemove
      else if n ≤ l ∧ l < n + joins reqs then .regAccepted else st l) := by
  intro reqs
  induction reqs with
  | nil =>
    intro n st _ _ _
    show some (n, st) = some (n + 0, _)
    congr 2
    funext l
    rw [if_neg (show ¬ l ∈ rms [] by simp [rms]), if_neg (show ¬ (n ≤ l ∧ l < n + joins []) by simp [joins])]
  | cons r reqs ih =>
    intro n st h1 h2 h3
    cases r with
    | join =>
      have hj : joins (.join :: reqs) = joins reqs + 1 := rfl
      have hr : rms (.join :: reqs) = rms reqs := rfl
      rw [hj] at h3
      rw [hr] at h1 h2
      simp only [doReqs]
      rw [if_pos (by omega), ih (n + 1) _ h1 ?_ (by omega)]
      · congr 2
        · omega
        · funext l
          by_cases h : l ∈ rms reqs
          · rw [if_pos h, if_pos (hr ▸ h)]
          · rw [if_neg h, if_neg (show ¬ l ∈ rms (.join :: reqs) from hr ▸ h), hj]
            unfold upd
            by_cases h5 : l = n
            · subst h5; rw [if_neg (by omega), if_pos rfl, if_pos (by omega)]
            · rw [if_neg h5]
              by_cases h6 : n + 1 ≤ l ∧ l < n + 1 + joins reqs
              · rw [if_pos h6, if_pos (by omega)]
              · rw [if_neg h6, if_neg (by omega)]
      · intro l hl
        obtain ⟨c1, c2⟩ := h2 l hl
        exact ⟨by omega, by rw [upd, if_neg (by omega)]; exact c2⟩
    | remove a =>
      have hj : joins (.remove a :: reqs) = joins reqs := rfl
      have hr : rms (.remove a :: reqs) = a :: rms reqs := rfl
      rw [hj] at h3
      rw [hr] at h1 h2
      simp only [doReqs]
      obtain ⟨b1, b2⟩ := h2 a (by simp)
      rw [if_pos b2, ih n _ (List.nodup_cons.1 h1).2 ?_ h3]
      · congr 2
        funext l
        by_cases h : l ∈ rms reqs
        · rw [if_pos h, if_pos (show l ∈ rms (.remove a :: reqs) by rw [hr]; simp [h])]
        · rw [if_neg h]
          by_cases h5 : l = a
          · subst h5
            rw [if_neg (by omega), if_pos (show l ∈ rms (.remove l :: reqs) by rw [hr]; simp)]
            simp [upd]
          · rw [if_neg (show ¬ l ∈ rms (.remove a :: reqs) by rw [hr]; simp [h, h5]), upd, if_neg h5, hj]
      · intro l hl
        obtain ⟨c1, c2⟩ := h2 l (List.mem_cons_of_mem _ hl)
        have : l ≠ a := fun h => (List.nodup_cons.1 h1).1 (h ▸ hl)
        exact ⟨c1, by rw [upd, if_neg this]; exact c2⟩

/-- State of a peer after its `ok`. -/
def okState : PS → PS
  | .regFinishing => .ready
  | .inResize2 => .inResize3
  | .inResizeRemove2 => .inResizeRemove3
  | s => s

theorem okAll_spec : ∀ (o : List Nat) (r : Int) (st : Nat → PS), o.Nodup →
    okAll r st o = (r + (o.filter fun l => st l = .regFinishing).length,
      fun l => if l ∈ o then okState (st l) else st l) := by
  intro o
  induction o with
  | nil => intro r st _; simp [okAll]
  | cons a o ih =>
    intro r st h1
    obtain ⟨ha, ho⟩ := List.nodup_cons.1 h1
    have hf : ∀ s, (o.filter fun l => decide (upd st a s l = .regFinishing)) =
        o.filter fun l => decide (st l = .regFinishing) := by
      intro s
      apply List.filter_congr
      intro l hl
      have : l ≠ a := fun h => ha (h ▸ hl)
      simp [upd, this]
    have hu : (fun l => if l ∈ o then okState (upd st a (okState (st a)) l) else upd st a (okState (st a)) l) =
        fun l => if l ∈ a :: o then okState (st l) else st l := by
      funext l
      unfold upd
      by_cases h : l = a
      · subst h; simp [ha]
      · simp [h]
    have hsame : okState (st a) = st a →
        (fun l => if l ∈ o then okState (st l) else st l) =
        fun l => if l ∈ a :: o then okState (st l) else st l := by
      intro h5
      funext l
      by_cases h : l = a
      · subst h; simp [ha, h5]
      · simp [h]
    cases hs : st a <;> simp only [okAll, hs]
    case regFinishing =>
      rw [ih _ _ ho, hf]
      rw [hs] at hu
      simp only [okState] at hu ⊢
      rw [hu]
      congr 1
      rw [List.filter_cons, if_pos (by simp [hs]), List.length_cons]
      omega
    case inResize2 =>
      rw [ih _ _ ho, hf]
      rw [hs] at hu
      simp only [okState] at hu ⊢
      rw [hu]
      congr 1
      rw [List.filter_cons, if_neg (by simp [hs])]
    case inResizeRemove2 =>
      rw [ih _ _ ho, hf]
      rw [hs] at hu
      simp only [okState] at hu ⊢
      rw [hu]
      congr 1
      rw [List.filter_cons, if_neg (by simp [hs])]
    all_goals
      rw [ih _ _ ho, hsame (by rw [hs]; rfl), List.filter_cons, if_neg (by simp [hs])]

end Laik.Rsz
