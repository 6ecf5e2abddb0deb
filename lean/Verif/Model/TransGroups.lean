import Verif.Props.Transition
/-!
# Group numbers of a transition

Every group of a transition has only one number.
-/

namespace Laik

/-- Number of a group, src/space.c 746-768 and 1289-1312. -/
def groupId (n : Nat) (gs : List (List Nat)) (g : List Nat) : Int := if g.length = n then -1 else gs.idxOf g

/-- The number is that of its group. -/
def CanonId (n : Nat) (gs : List (List Nat)) (i : Int) : Prop := i = -1 ∨ ∃ g ∈ gs, g.length ≠ n ∧ i = (gs.idxOf g : Int)

theorem CanonId.append {n : Nat} {gs : List (List Nat)} {i : Int} (h : CanonId n gs i) (gs' : List (List Nat)) : CanonId n (gs ++ gs') i := by
  rcases h with h | ⟨g, hg, h1, h2⟩
  · exact Or.inl h
  · exact Or.inr ⟨g, List.mem_append_left _ hg, h1, by rw [List.idxOf_append_of_mem hg]; exact h2⟩

theorem CanonId.eq {n : Nat} {gs : List (List Nat)} {i : Int} (h : CanonId n gs i) : i = groupId n gs (transGroup n gs i) := by
  unfold groupId transGroup
  rcases h with rfl | ⟨g, hg, h1, rfl⟩
  · rw [if_pos rfl, if_pos List.length_range]
  · have h2 : gs[((gs.idxOf g : Int)).toNat]?.getD [] = g := by
      rw [Int.toNat_natCast, List.getElem?_eq_getElem (List.idxOf_lt_length_of_mem hg)]
      simp
    rw [if_neg (c := ((gs.idxOf g : Nat) : Int) = -1) (by omega), h2, if_neg h1]

def CanonOp (n : Nat) (gs : List (List Nat)) : TOp → Prop
  | .red _ _ i o _ _ => CanonId n gs i ∧ CanonId n gs o
  | _ => True

theorem CanonOp.append {n : Nat} {gs : List (List Nat)} {op : TOp} (h : CanonOp n gs op) (gs' : List (List Nat)) : CanonOp n (gs ++ gs') op := by
  cases op with
  | red x y i o a b => exact ⟨h.1.append gs', h.2.append gs'⟩
  | loc => trivial
  | send => trivial
  | recv => trivial

/-- Invariant of the traversal. -/
structure TCanon (n : Nat) (st : TSt) : Prop where
  inS : st.inG.Pairwise (· < ·)
  outS : st.outG.Pairwise (· < ·)
  gsS : ∀ g ∈ st.groups, g.Pairwise (· < ·)
  ops : ∀ op ∈ st.ops, CanonOp n st.groups op

theorem addTask_sorted (l : List Nat) : ∀ t g, addTask l t = some g → l.Pairwise (· < ·) →
    g.Pairwise (· < ·) ∧ ∀ x ∈ g, x = t ∨ x ∈ l := by
  induction l with
  | nil => intro t g h _; cases h; exact ⟨List.pairwise_singleton _ _, fun x hx => Or.inl (List.mem_singleton.1 hx)⟩
  | cons a l ih =>
    intro t g h hp
    rw [addTask] at h
    by_cases c1 : t < a
    · rw [if_pos c1] at h
      cases h
      refine ⟨List.pairwise_cons.2 ⟨?_, hp⟩, ?_⟩
      · intro x hx
        rcases List.mem_cons.1 hx with rfl | hx
        · exact c1
        · have := (List.pairwise_cons.1 hp).1 x hx; omega
      · intro x hx
        rcases List.mem_cons.1 hx with rfl | hx
        · exact Or.inl rfl
        · exact Or.inr hx
    · rw [if_neg c1] at h
      by_cases c2 : t = a
      · rw [if_pos c2] at h; cases h
      · rw [if_neg c2] at h
        cases e : addTask l t with
        | none => rw [e] at h; cases h
        | some g' =>
          rw [e, Option.map_some, Option.some.injEq] at h
          subst h
          obtain ⟨i1, i2⟩ := ih t g' e (List.pairwise_cons.1 hp).2
          refine ⟨List.pairwise_cons.2 ⟨?_, i1⟩, ?_⟩
          · intro x hx
            rcases i2 x hx with rfl | hx
            · omega
            · exact (List.pairwise_cons.1 hp).1 x hx
          · intro x hx
            rcases List.mem_cons.1 hx with rfl | hx
            · exact Or.inr List.mem_cons_self
            · rcases i2 x hx with rfl | hx
              · exact Or.inl rfl
              · exact Or.inr (List.mem_cons_of_mem _ hx)

theorem removeTask_sublist (l : List Nat) : ∀ t g, removeTask l t = some g → g.Sublist l := by
  induction l with
  | nil => intro t g h; cases h
  | cons a l ih =>
    intro t g h
    cases l with
    | nil =>
      rw [removeTask] at h
      split at h
      · cases h
      · cases h; exact List.nil_sublist _
    | cons b l =>
      rw [removeTask] at h
      split at h
      · cases h
      · split at h
        · cases h; exact List.sublist_cons_self _ _
        · cases e : removeTask (b :: l) t with
          | none => rw [e] at h; cases h
          | some g' =>
            rw [e, Option.map_some, Option.some.injEq] at h
            subst h
            exact (ih t g' e).cons_cons a

theorem TCanon.update {n myid : Nat} {st st' : TSt} {sb : Border} (h : TCanon n st) (e : tUpdate myid st sb = some st') : TCanon n st' := by
  unfold tUpdate at e
  split at e
  · split at e
    · obtain ⟨g, hg, rfl⟩ := Option.map_eq_some_iff.1 e
      have := (addTask_sorted _ _ _ hg h.inS).1
      split
      · exact ⟨this, h.outS, h.gsS, h.ops⟩
      · exact ⟨this, h.outS, h.gsS, h.ops⟩
    · obtain ⟨g, hg, rfl⟩ := Option.map_eq_some_iff.1 e
      have := h.inS.sublist (removeTask_sublist _ _ _ hg)
      split
      · exact ⟨this, h.outS, h.gsS, h.ops⟩
      · exact ⟨this, h.outS, h.gsS, h.ops⟩
  · split at e
    · obtain ⟨g, hg, rfl⟩ := Option.map_eq_some_iff.1 e
      have := (addTask_sorted _ _ _ hg h.outS).1
      split
      · exact ⟨h.inS, this, h.gsS, h.ops⟩
      · exact ⟨h.inS, this, h.gsS, h.ops⟩
    · obtain ⟨g, hg, rfl⟩ := Option.map_eq_some_iff.1 e
      have := h.outS.sublist (removeTask_sublist _ _ _ hg)
      split
      · exact ⟨h.inS, this, h.gsS, h.ops⟩
      · exact ⟨h.inS, this, h.gsS, h.ops⟩

/-- A group gets the number of its first occurrence. -/
theorem getTaskGroup_idx (gs : List (List Nat)) (g : List Nat) :
    ∃ gs', (getTaskGroup gs g).2 = gs ++ gs' ∧ g ∈ gs ++ gs' ∧ (getTaskGroup gs g).1 = (gs ++ gs').idxOf g ∧ ∀ x ∈ gs', x = g := by
  unfold getTaskGroup
  by_cases h : g ∈ gs
  · rw [if_pos h]
    exact ⟨[], by simp, by simpa using h, by simp, by simp⟩
  · rw [if_neg h]
    refine ⟨[g], rfl, by simp, ?_, by simp⟩
    rw [List.idxOf_append_of_notMem h]
    simp

theorem TCanon.emit {n redOp myid : Nat} {x y : Int} {st st' : TSt} (h : TCanon n st) (e : emit n redOp myid x y st = some st') : TCanon n st' := by
  unfold Laik.emit at e
  have add : ∀ l : List TOp, (∀ op ∈ l, CanonOp n st.groups op) → TCanon n { st with ops := st.ops ++ l } := by
    intro l hl
    refine ⟨h.inS, h.outS, h.gsS, ?_⟩
    intro op ho
    rcases List.mem_append.1 ho with ho | ho
    · exact h.ops op ho
    · exact hl op ho
  split at e
  · cases e; exact h
  · split at e
    · cases e
    · split at e
      · split at e
        · split at e
          · split at e
            · cases e
              exact add _ (by intro op ho; rw [List.mem_singleton] at ho; subst ho; trivial)
            · cases e
              apply add
              intro op ho
              obtain ⟨o, _, rfl⟩ := List.mem_map.1 ho
              split <;> trivial
          · cases e
            apply add
            intro op ho
            obtain ⟨o, _, rfl⟩ := List.mem_map.1 ho
            trivial
        · cases e
      · obtain ⟨g1, e1, m1, i1, s1⟩ := getTaskGroup_idx st.groups st.inG
        obtain ⟨g2, e2, m2, i2, s2⟩ := getTaskGroup_idx (st.groups ++ g1) st.outG
        simp only [e1, e2, i1, i2] at e
        split at e
        · cases e
        · cases e
          refine ⟨h.inS, h.outS, ?_, ?_⟩
          · intro g hg
            rcases List.mem_append.1 hg with hg | hg
            · rcases List.mem_append.1 hg with hg | hg
              · exact h.gsS g hg
              · rw [s1 g hg]; exact h.inS
            · rw [s2 g hg]; exact h.outS
          · intro op ho
            rcases List.mem_append.1 ho with ho | ho
            · exact ((h.ops op ho).append g1).append g2
            · rw [List.mem_singleton] at ho
              subst ho
              refine ⟨?_, ?_⟩
              · apply CanonId.append
                by_cases c : st.inG.length = n
                · rw [if_pos c]; exact Or.inl rfl
                · rw [if_neg c]; exact Or.inr ⟨_, m1, c, rfl⟩
              · by_cases c : st.outG.length = n
                · rw [if_pos c]; exact Or.inl rfl
                · rw [if_neg c]; exact Or.inr ⟨_, m2, c, rfl⟩

theorem TCanon.trav {n redOp myid : Nat} (l : List Border) : ∀ {st st' : TSt}, TCanon n st → trav n redOp myid st l = some st' → TCanon n st' := by
  induction l with
  | nil =>
    intro st st' h e
    rw [Laik.trav] at e
    split at e
    · cases e; exact h
    · cases e
  | cons sb rest ih =>
    intro st st' h e
    rw [Laik.trav] at e
    cases e1 : tUpdate myid st sb with
    | none => rw [e1] at e; cases e
    | some s1 =>
      rw [e1] at e
      have h1 := h.update e1
      cases hr : rest.head? with
      | none =>
        simp only [hr] at e
        exact ih h1 e
      | some nb =>
        simp only [hr] at e
        by_cases c : nb.b > sb.b
        · rw [if_pos c] at e
          cases e2 : Laik.emit n redOp myid sb.b nb.b s1 with
          | none => rw [e2] at e; cases e
          | some s2 =>
            rw [e2] at e
            exact ih (h1.emit e2) e
        · rw [if_neg c] at e
          exact ih h1 e

theorem Calculated.canon {n redOp : Nat} {F T : List TR} {p : Nat} {F' T' : List TR} {st : TSt} (h : Calculated n redOp F T p F' T' st) : TCanon n st := by
  obtain ⟨s, _, e⟩ := h.result
  exact TCanon.trav s ⟨List.Pairwise.nil, List.Pairwise.nil, fun g hg => (by cases hg), fun op ho => (by cases ho)⟩ e

theorem TCanon.nodup {n : Nat} {st : TSt} (h : TCanon n st) (i : Int) : (transGroup n st.groups i).Nodup := by
  unfold transGroup
  split
  · exact List.nodup_range
  · cases e : st.groups[i.toNat]? with
    | none => exact List.nodup_nil
    | some g => exact (h.gsS g (List.mem_of_getElem? e)).imp (fun h => Nat.ne_of_lt h)

end Laik
