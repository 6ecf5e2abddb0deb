/-!
# External agents (`src/external.c`)
-/

namespace Laik.Ag

/-- `Laik_RepartitionControl` (include/laik/ext.h 34-43): arrays of `MAX_AGENTS` = 10
(30) handles of libraries (`none`: 0) and agents. -/
structure Ctrl where
  handles : List (Option Nat)
  agents : List (Option Nat)
  num : Nat
  deriving DecidableEq, Repr

/-- `laik_ext_init`, src/external.c 288-298. -/
def Ctrl.init : Ctrl := ⟨List.replicate 10 none, List.replicate 10 none, 0⟩

/-- Write to an array.  `none`: outside of the array. -/
def store (l : List (Option Nat)) (i : Nat) (v : Option Nat) : Option (List (Option Nat)) := if i < l.length then some (l.set i v) else none

/-- `laik_ext_load_agent_from_file` (src/external.c 102-141, `h` is the handle of the
library) and `laik_ext_loadagent` (152-181, no handle); the agent is what `init`
returned.  `none`: failed assert (123, 172), or write outside of an array. -/
def Ctrl.load (c : Ctrl) (agent : Nat) (h : Option Nat) : Option Ctrl :=
  if ¬ c.num ≤ 10 then none
  else (store c.agents c.num (some agent)).bind fun a =>
    (store c.handles (c.num + 1) h).map fun hs => ⟨hs, a, c.num + 1⟩

/-- Agents loaded one after the other. -/
def Ctrl.loadAll : Ctrl → List (Nat × Option Nat) → Option Ctrl
  | c, [] => some c
  | c, x :: xs => (c.load x.1 x.2).bind fun c' => c'.loadAll xs

/-- Handles for which `laik_ext_cleanup` (src/external.c 189-208) calls `dlclose`, in
order.  `none`: read outside of the array. -/
def Ctrl.cleanup (c : Ctrl) : Option (List Nat) := if c.num ≤ c.handles.length then some ((c.handles.take c.num).filterMap id) else none

/-- Agents in the order in which they are asked, `laik_get_failed` 237-238, and
`laik_set_iteration` in src/program.c 29-41. -/
def Ctrl.asked (c : Ctrl) : Option (List (Option Nat)) := if c.num ≤ c.agents.length then some (c.agents.take c.num) else none

/-- `laik_get_failed`, src/external.c 221-280: `fails a` are the nodes which agent `a`
reports when asked (none if it is not an agent for fault tolerance), `old` is what the
caller's array has. -/
def getFailed (fails : Nat → List Nat) (old : List Nat) : List Nat → List Nat
  | [] => old
  | a :: as => getFailed fails (if fails a = [] then old else fails a) as

structure Loaded (c : Ctrl) (xs : List (Nat × Option Nat)) : Prop where
  num : c.num = xs.length
  le : xs.length ≤ 9
  agents : c.agents = xs.map (fun x => some x.1) ++ List.replicate (10 - xs.length) none
  handles : c.handles = none :: xs.map (fun x => x.2) ++ List.replicate (9 - xs.length) none

theorem loaded_init : Loaded Ctrl.init [] := ⟨rfl, by decide, rfl, rfl⟩

theorem set_end {α : Type} (l : List α) (n : Nat) (x y : α) : (l ++ List.replicate (n + 1) x).set l.length y = l ++ [y] ++ List.replicate n x := by
  rw [List.set_append, if_neg (Nat.lt_irrefl _), Nat.sub_self, List.replicate_succ, List.set_cons_zero]
  simp

theorem load_step {c : Ctrl} {xs : List (Nat × Option Nat)} (h : Loaded c xs) (a : Nat) (hd : Option Nat) :
    (xs.length < 9 → ∃ c', c.load a hd = some c' ∧ Loaded c' (xs ++ [(a, hd)])) ∧ (9 ≤ xs.length → c.load a hd = none) := by
  obtain ⟨h1, h2, h3, h4⟩ := h
  unfold Ctrl.load store
  constructor
  · intro hl
    have la : c.agents.length = 10 := by rw [h3]; simp; omega
    have lh : c.handles.length = 10 := by rw [h4]; simp; omega
    rw [if_neg (by omega), if_pos (by omega), Option.bind_some, if_pos (by omega)]
    refine ⟨_, rfl, by simp [h1], by simp; omega, ?_, ?_⟩
    · have := set_end (xs.map (fun x => some x.1)) (9 - xs.length) none (some a)
      rw [List.length_map] at this
      simp only
      rw [h3, h1, show 10 - xs.length = 9 - xs.length + 1 by omega, this]
      simp
    · have := set_end (none :: xs.map (fun x => x.2)) (8 - xs.length) none hd
      rw [List.length_cons, List.length_map] at this
      simp only
      rw [h4, h1, show 9 - xs.length = 8 - xs.length + 1 by omega, this]
      simp [show 9 - (xs.length + 1) = 8 - xs.length by omega]
  · intro hl
    have lh : c.handles.length = 10 := by rw [h4]; simp; omega
    have la : c.agents.length = 10 := by rw [h3]; simp; omega
    rw [if_neg (by omega), if_pos (by omega), Option.bind_some, if_neg (by omega)]
    rfl

theorem loadAll_iff : ∀ (ys xs : List (Nat × Option Nat)) {c : Ctrl}, Loaded c xs →
    (xs.length + ys.length ≤ 9 → ∃ c', c.loadAll ys = some c' ∧ Loaded c' (xs ++ ys)) ∧ (9 < xs.length + ys.length → c.loadAll ys = none) := by
  intro ys
  induction ys with
  | nil =>
    intro xs c h
    refine ⟨fun _ => ⟨c, rfl, by simpa using h⟩, fun hl => ?_⟩
    have := h.le
    simp at hl
    omega
  | cons y ys ih =>
    intro xs c h
    obtain ⟨h1, h2⟩ := load_step h y.1 y.2
    rw [Ctrl.loadAll, List.length_cons]
    rcases Nat.lt_or_ge xs.length 9 with hl | hl
    · obtain ⟨c', e, hc⟩ := h1 hl
      obtain ⟨g1, g2⟩ := ih _ hc
      rw [e, Option.bind_some]
      simp only [List.length_append, List.length_cons, List.length_nil, List.append_assoc, List.singleton_append] at g1 g2
      exact ⟨fun hh => g1 (by omega), fun hh => g2 (by omega)⟩
    · rw [h2 hl]
      exact ⟨fun hh => by omega, fun _ => rfl⟩

end Laik.Ag
