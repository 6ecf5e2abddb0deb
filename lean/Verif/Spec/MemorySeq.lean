import Verif.Spec.Memory
/-!
# Several operations on memory as one
-/

namespace Laik

variable {K β : Type} [DecidableEq K]

/-- State without communication. -/
def MSt.ofMem (m : Nat → β) : MSt K β := ⟨m, fun _ => 0, fun _ => []⟩

theorem seq_agree (l : List (MOp K β)) : ∀ (D : Nat → Prop) (s s' : MSt K β), s.pos = s'.pos →
    (∀ y, (∃ o ∈ l, o.R y) ∨ D y → s.mem y = s'.mem y) →
    ∀ x, ((∃ o ∈ l, o.W x = true) ∨ D x) → (runOps l s).mem x = (runOps l s').mem x := by
  induction l with
  | nil =>
    intro D s s' _ h x hx
    rcases hx with ⟨o, ho, _⟩ | hx
    · cases ho
    · exact h x (Or.inr hx)
  | cons o l ih =>
    intro D s s' hp h x hx
    have hpos : o.posOf s = o.posOf s' := by unfold MOp.posOf; rw [hp]
    refine ih (fun y => D y ∨ o.W y = true) (o.run s) (o.run s') ?_ ?_ x ?_
    · funext k; simp only [MOp.run, hp]
    · intro y hy
      show (if o.W y = true then _ else _) = (if o.W y = true then _ else _)
      by_cases c : o.W y = true
      · rw [if_pos c, if_pos c, hpos]
        exact o.val_local _ _ _ y (fun z hz => h z (Or.inl ⟨o, List.mem_cons_self, hz⟩)) c
      · rw [if_neg c, if_neg c]
        rcases hy with ⟨o', ho', hr⟩ | hy | hy
        · exact h y (Or.inl ⟨o', List.mem_cons_of_mem _ ho', hr⟩)
        · exact h y (Or.inr hy)
        · exact absurd hy c
    · rcases hx with ⟨o', ho', hw⟩ | hx
      · rcases List.mem_cons.1 ho' with rfl | ho'
        · exact Or.inr (Or.inr hw)
        · exact Or.inl ⟨o', ho', hw⟩
      · exact Or.inr (Or.inl hx)

/-- The operations `l`, which do not communicate, one after the other. -/
def seqOp (l : List (MOp K β)) : MOp K β where
  R y := ∃ o ∈ l, o.R y
  W x := l.any (fun o => o.W x)
  val m _ x := (runOps l (MSt.ofMem m)).mem x
  key := none
  outB _ := []
  adv := 0
  val_local m m' _ x h hx := by
    rw [List.any_eq_true] at hx
    exact seq_agree l (fun _ => False) (MSt.ofMem m) (MSt.ofMem m') rfl (fun y hy => hy.elim (h y) False.elim) x (Or.inl hx)
  out_local _ _ _ := rfl

end Laik
