import Verif.Model.Agents
/-!
# C63: external agents
-/

namespace Laik.Ag

/-- C63: exactly up to 9 agents can be loaded without a write outside of the arrays;
all are asked, in the order in which they were loaded.  Missing: the arrays have 10
entries, and the code accepts 11 agents. -/
theorem C63_load_partial (xs : List (Nat × Option Nat)) :
    (∃ c, Ctrl.init.loadAll xs = some c ∧ c.asked = some (xs.map fun x => some x.1)) ↔ xs.length ≤ 9 := by
  have h := loadAll_iff xs [] loaded_init
  rw [List.length_nil, Nat.zero_add] at h
  constructor
  · rintro ⟨c, e, _⟩
    rcases Nat.lt_or_ge 9 xs.length with hl | hl
    · rw [h.2 hl] at e
      cases e
    · exact hl
  · intro hl
    obtain ⟨c, e, hc⟩ := h.1 hl
    refine ⟨c, e, ?_⟩
    have la : c.agents.length = 10 := by rw [hc.agents]; simp; omega
    have := hc.num
    unfold Ctrl.asked
    rw [if_pos (by simp at this; omega), hc.agents, hc.num]
    rw [List.take_left' (by simp)]
    rfl

/-- C63 is false: the 10th agent passes the check (`num_agents <= MAX_AGENTS`), its handle
is written after the end of the array of handles. -/
theorem C63_tenth_agent : ∃ c, Ctrl.init.loadAll (List.replicate 9 (1, none)) = some c ∧ c.num ≤ 10 ∧ ∀ a h, c.load a h = none := by
  obtain ⟨c, e, hc⟩ := (loadAll_iff (List.replicate 9 (1, none)) [] loaded_init).1 (by decide)
  exact ⟨c, e, by rw [hc.num]; decide, fun a h => (load_step hc a h).2 (by decide)⟩

/-- C63: cleaning up closes the libraries of all agents but the last, each once.  Missing:
the last, see `C63_leak`. -/
theorem C63_cleanup_partial (xs : List (Nat × Option Nat)) (hl : xs.length ≤ 9) :
    ∃ c, Ctrl.init.loadAll xs = some c ∧ c.cleanup = some (xs.dropLast.filterMap fun x => x.2) := by
  obtain ⟨c, e, hc⟩ := (loadAll_iff xs [] loaded_init).1 (by simpa using hl)
  rw [List.nil_append] at hc
  refine ⟨c, e, ?_⟩
  have lh : c.handles.length = 10 := by rw [hc.handles]; simp; omega
  have hn := hc.num
  unfold Ctrl.cleanup
  rw [if_pos (by omega), hc.handles, hc.num]
  rcases List.eq_nil_or_concat xs with rfl | ⟨ys, y, rfl⟩
  · rfl
  · rw [List.concat_eq_append, List.dropLast_concat, List.length_append, List.length_singleton, List.map_append, List.map_singleton]
    have : (none :: (ys.map (fun (x : Nat × Option Nat) => x.2) ++ [y.2]) ++ List.replicate (9 - (ys.length + 1)) none).take (ys.length + 1) =
        none :: ys.map (fun x => x.2) := by
      rw [List.cons_append, List.take_succ_cons, List.append_assoc, List.take_left' (by simp)]
    rw [this]
    simp [List.filterMap_map]

/-- C63 is false: the library of the only agent is never closed. -/
theorem C63_leak (a h : Nat) : ∃ c, Ctrl.init.loadAll [(a, some h)] = some c ∧ c.cleanup = some [] :=
  C63_cleanup_partial [(a, some h)] (by simp)

/-- C63 for failures: the report is that of the last agent which has any. -/
theorem C63_failed_partial (fails : Nat → List Nat) (old : List Nat) (as : List Nat) :
    getFailed fails old as = ((as.reverse.find? fun a => decide (fails a ≠ [])).map fails).getD old := by
  induction as generalizing old with
  | nil => rfl
  | cons a as ih =>
    rw [getFailed, ih, List.reverse_cons, List.find?_append]
    cases hf : as.reverse.find? (fun a => decide (fails a ≠ [])) with
    | some b => rfl
    | none =>
      by_cases h : fails a = []
      · simp [h]
      · simp [h]

/-- C63 is false: failures found by other agents are lost. -/
theorem C63_failed_lost : ∃ (fails : Nat → List Nat) (a b : Nat), fails a = [5] ∧ ¬ 5 ∈ getFailed fails [] [a, b] :=
  ⟨fun a => if a = 0 then [5] else [6], 0, 1, rfl, by decide⟩

/-! ### A case meeting the hypotheses -/

example : ∃ c, Ctrl.init.loadAll [(1, some 11), (2, none), (3, some 13)] = some c ∧ c.cleanup = some [11] ∧ c.asked = some [some 1, some 2, some 3] := by
  refine ⟨_, rfl, by decide, by decide⟩

end Laik.Ag
