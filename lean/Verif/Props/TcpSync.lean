import Verif.Model.TcpSyncStuck
import Verif.Props.MiniMpi
/-!
# C57: synchronization of key-value stores with the TCP backend based on GLib
-/

namespace Laik.Ts

open Laik.Mm

variable {S : Comm → Prop} {c : Comm} {q : List KEnt → List KEnt} {rs : List (List (List (Bytes × Bytes)))}

theorem world_evs (hS : Sep S) (hc : S c) (h0 : 0 < c.tasks.length) (hq : IsQsort q) (hl : ∀ hs ∈ rs, hs.length = c.tasks.length)
    (hok : RoundsOK (fun _ => none) rs) (hfit : ∀ hs ∈ rs, RoundFits hs) :
    ∃ (es : List (Ev KVS)) (t : Nat → KVS), WF S none es ∧ run es (fun _ => kvsNew) = some t ∧
      (∀ p, Le (proj p es kvsNew) (worldP q c rs p)) ∧
      ∀ p ∈ c.tasks, ∀ k, kvsGet (t p) k = some (roundsSpec (fun _ => none) rs k) := by
  obtain ⟨es, t, h1, h2, h3, h4⟩ := rounds_evs hq (hS.nodup c hc) hc h0 rs (ss := List.replicate c.tasks.length kvsNew)
    (fun _ => kvsNew) (by simp) hl (by intro s hs; rw [List.eq_of_mem_replicate hs]; exact kvsNew_clean) hok hfit (by simp)
  refine ⟨es, t, h1, h2, fun p => ?_, fun p hp k => ?_⟩
  · unfold worldP
    by_cases hp : p ∈ c.tasks
    · rw [if_pos hp]
      have hi := List.idxOf_lt_length_of_mem hp
      have := (h4 _ hi).2 kvsNew (by rw [List.getElem?_replicate, if_pos hi])
      rwa [Comm.proc_idxOf hp] at this
    · rw [if_neg hp, h3 p _ hp]
      exact .ret _
  · have := (h4 _ (List.idxOf_lt_length_of_mem hp)).1
    rw [Comm.proc_idxOf hp] at this
    rw [kvsGet_spec this.inv.ent, this.val]

/-- **C57**, values: after any number of rounds of updates and synchronizations, in all
executions, whatever the sizes of the boxes and whatever is lost, no process stopped because of an
error, and every process which is done has the values of the updates of all processes.
Missing, as false: as in C26 (removed entries, a key changed twice by a process, rounds without a change or
with changes of few bytes only, values which are prefixes of each other); and changes of 2^31 bytes. -/
theorem C57_values_partial (hS : Sep S) (hc : S c) (h0 : 0 < c.tasks.length) (hq : IsQsort q)
    (hl : ∀ hs ∈ rs, hs.length = c.tasks.length) (hok : RoundsOK (fun _ => none) rs) (hfit : ∀ hs ∈ rs, RoundFits hs)
    {A il ol : Nat} {L : Item → Prop} {τ : Sys KVS} (h : Steps A L (Sys.start il ol (worldP q c rs)) τ) {p : Nat} (hp : p ∈ c.tasks) :
    (τ.proc p).pc ≠ .dead ∧ (τ.proc p).pc ≠ .run .err ∧
      ∀ x, (τ.proc p).pc = .run (.ret x) → ∀ k, kvsGet x k = some (roundsSpec (fun _ => none) rs k) := by
  obtain ⟨es, t, h1, h2, h3, h4⟩ := world_evs hS hc h0 hq hl hok hfit
  obtain ⟨g1, g2, g3⟩ := sim_results hS h1 h2 h3 h p
  exact ⟨g1, g2, fun x hx => by rw [g3 x hx]; exact h4 p hp⟩

/-- **C57**, no deadlock: however small inboxes and outboxes are, from every state reached all
processes can go on until they are done, with these values, if no receive was given
up, answers to GET and notes that a message was taken are not lost, and messages are asked for
at least twice. Missing as above. -/
theorem C57_completes_partial (hS : Sep S) {N : Nat} (hN : ∀ c, S c → ∀ p ∈ c.tasks, p < N) (hc : S c) (h0 : 0 < c.tasks.length)
    (hq : IsQsort q) (hl : ∀ hs ∈ rs, hs.length = c.tasks.length) (hok : RoundsOK (fun _ => none) rs) (hfit : ∀ hs ∈ rs, RoundFits hs)
    {A il ol : Nat} (hA : 2 ≤ A) {L : Item → Prop} (hL : ∀ q h b, ¬ L (.getRep q h b)) (hD : ∀ p h, ¬ L (.disc p h))
    {τ : Sys KVS} (h : Steps A L (Sys.start il ol (worldP q c rs)) τ)
    (hf : ∀ p, (∀ m k, (τ.proc p).pc ≠ .failed m k) ∧
      ∀ m q h att k, (τ.proc p).pc = .getting m q h att k → att + 1 < A) :
    ∃ (υ : Sys KVS) (t : Nat → KVS), Steps A (fun _ => False) τ υ ∧ (∀ p, p < N → (υ.proc p).pc = .run (.ret (t p))) ∧
      ∀ p ∈ c.tasks, ∀ k, kvsGet (t p) k = some (roundsSpec (fun _ => none) rs k) := by
  obtain ⟨es, t, h1, h2, h3, h4⟩ := world_evs hS hc h0 hq hl hok hfit
  obtain ⟨υ, h5, h6⟩ := sim_completes hS hN h1 h2 h3 hA hL hD h fun p => by
    obtain ⟨h1, h2⟩ := hf p
    cases hc : (τ.proc p).pc with
    | getting m q h att k => exact h2 m q h att k hc
    | failed m k => exact absurd hc (h1 m k)
    | _ => trivial
  exact ⟨υ, t, h5, h6, h4⟩

/-- **C57**: if no process has a change in the first synchronization, no process ever is done, in
any execution (`assert` at backend-tcp.c 905 fails in process 0). -/
theorem C57_no_change_never_ends (hS : Sep S) (hc : S c) (n : Nat) {A il ol : Nat} {L : Item → Prop} {τ : Sys KVS}
    (h : Steps A L (Sys.start il ol (worldP q c (List.replicate n [] :: rs))) τ) {p : Nat} (hp : p ∈ c.tasks) (x : KVS) :
    (τ.proc p).pc ≠ .run (.ret x) := by
  obtain ⟨u, h1, h2⟩ := (Inv.start il ol fun p => uses_worldP (q := q) hc (List.replicate n [] :: rs) p).steps hS h
  intro e
  refine ((NoChI.start n rs).steps h1).ret hp (x := x) ?_
  rw [(h2.pc p).2, e]
  rfl

/-! ### Cases meeting the hypotheses -/

/-- Three processes. -/
def w3 : Comm := ⟨0, [0, 1, 2], 1⟩

theorem w3_sep : Sep (· = w3) := ⟨by rintro c rfl; decide, by rintro a b p rfl rfl _ _ _; rfl⟩

theorem syncDemo_fits : ∀ hs ∈ syncDemo, RoundFits hs := by
  intro hs hh
  simp only [syncDemo, List.mem_cons, List.not_mem_nil, or_false] at hh
  rcases hh with rfl | rfl
  · exact ⟨by decide, by decide⟩
  · exact ⟨by decide, by decide⟩

/-- Two rounds of three processes, with boxes for no message; the value of `b` is set to 7, then to 8. -/
example : ∃ (υ : Sys KVS) (t : Nat → KVS), Steps 2 (fun _ => False) (Sys.start 0 0 (worldP insSort w3 syncDemo)) υ ∧
    (∀ p, p < 3 → (υ.proc p).pc = .run (.ret (t p))) ∧ kvsGet (t 0) [98] = some (some [8]) ∧
    kvsGet (t 2) [97, 98] = some (some [1, 2]) := by
  obtain ⟨υ, t, h1, h2, h3⟩ := C57_completes_partial w3_sep (N := 3) (fun c hc p hp => by
      subst hc
      simp [w3] at hp
      omega) rfl (by decide) insSort_isQsort (rs := syncDemo) (by decide) syncDemo_ok syncDemo_fits (A := 2) (il := 0) (ol := 0)
    (Nat.le_refl _) (L := fun _ => False) (fun _ _ _ h => h) (fun _ _ h => h) .refl
    fun p => ⟨(by intro m k h; cases h), by intro m q h att k h'; cases h'⟩
  exact ⟨υ, t, h1, h2, (h3 0 (by decide) [98]).trans (by decide), (h3 2 (by decide) [97, 98]).trans (by decide)⟩

/-- Case for `C57_values_partial`. -/
example {τ : Sys KVS} (h : Steps 5 (fun _ => True) (Sys.start 10 20 (worldP insSort w3 syncDemo)) τ) {x : KVS}
    (hx : (τ.proc 1).pc = .run (.ret x)) : kvsGet x [99] = some (some [5]) :=
  ((C57_values_partial w3_sep rfl (by decide) insSort_isQsort (by decide) syncDemo_ok syncDemo_fits h (p := 1) (by decide)).2.2 x hx
    [99]).trans (by decide)

/-- Case for `C57_no_change_never_ends`: changes only in the second round. -/
example {τ : Sys KVS} (h : Steps 5 (fun _ => True) (Sys.start 10 20 (worldP insSort w3 (List.replicate 3 [] :: syncDemo))) τ) (x : KVS) :
    (τ.proc 1).pc ≠ .run (.ret x) :=
  C57_no_change_never_ends w3_sep rfl 3 h (by decide) x

end Laik.Ts
