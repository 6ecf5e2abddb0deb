import Verif.Model.Tcp2SyncProg
import Verif.Props.Kvs
/-!
# C56: synchronization of key-value stores over the TCP2 backend
-/

namespace Laik.Ks
open Laik

variable {w : Prg} {g : Sys}

theorem inv_idle (h : Inv w g) {p : Nat} (hp : p < w.n) (hi : (g.proc p).pc = .idle) : Idle w (g.proc p).rd (g.proc p) := by
  by_cases hp0 : p = 0
  · subst hp0
    rcases h.mas.at_ with h1 | ⟨_, _, ⟨lid, h2, _⟩ | ⟨lid, h2, _⟩⟩
    · exact h1
    · rw [hi] at h2; cases h2
    · rw [hi] at h2; cases h2
  · have hns : ∀ {tld down}, NotSent w (g.proc 0).rd p (g.proc p) tld down → Idle w (g.proc p).rd (g.proc p) := by
      intro tld down hk
      rcases hk.at_ with h1 | ⟨h1, _⟩
      · rw [hk.rd]; exact h1
      · rw [hi] at h1; cases h1
    have hfi : ∀ {tld down}, Fin w (g.proc 0).rd (g.proc p) tld down → Idle w (g.proc p).rd (g.proc p) := by
      intro tld down hk
      have := hk.pc
      rw [hi] at this
      cases this
    have hse : ∀ {down}, Sent w (g.proc 0).rd (g.proc p) down → Idle w (g.proc p).rd (g.proc p) := by
      intro down hk
      have := hk.pc
      rw [hi] at this
      cases this
    have hk := h.link p (by omega) hp
    cases hs : stage (g.proc 0).pc p with
    | untold => rw [hs] at hk; exact hk.1.elim hns hfi
    | told => rw [hs] at hk; exact hk.elim (fun k => k.1.elim hns hfi) (fun k => hse k.1)
    | got => rw [hs] at hk; exact hse hk.1

/-- **C56**, values: in every execution, a process outside of a synchronization has in all its stores
the values set by all processes in the synchronizations it did. Missing: names, keys and
strings which do not survive the text protocol, removed entries, and different strings
set for a key at the same time; see below. -/
theorem C56_values_partial (hw : w.OK) (h : Reach w.cfg g) {p : Nat} (hp : p < w.n) (hi : (g.proc p).pc = .idle) (i : Nat)
    (k : Bytes) : kvsGet ((g.proc p).st i) k = some (valueAfter w.n (w.rs.take (g.proc p).rd) i k) := by
  have hc := (inv_idle (reach_inv hw h) hp hi).clean i
  rw [kvsGet_spec hc.inv.ent, hc.val]
  rfl

/-- **C56**, no failure: in no state reached a step of a process fails. Missing as above. -/
theorem C56_no_abort_partial (hw : w.OK) (h : Reach w.cfg g) (a : Act) : act w.cfg g a ≠ some none := by
  intro ha
  obtain ⟨g', h1, _⟩ := act_inv hw (reach_inv hw h) ha
  cases h1

/-- **C56**, no hang: a state without possible step is one where all processes did all
synchronizations, and no line is on the way. Missing as above. -/
theorem C56_not_stuck_partial (hw : w.OK) (h : Reach w.cfg g) (hs : ∀ a, act w.cfg g a = none) :
    (∀ p, p < w.n → (g.proc p).rd = w.rs.length ∧ (g.proc p).pc = .idle) ∧
    ∀ p q, p < w.n → q < w.n → g.chan p q = [] := by
  have hi := reach_inv hw h
  have hd : Done w g := by
    by_contra hd
    obtain ⟨a, r, ha⟩ := progress hw hi hd
    rw [hs a] at ha
    cases ha
  refine ⟨hd, ?_⟩
  have hcl : ∀ p, 1 ≤ p → p < w.n → eff g 0 p = [] ∧ eff g p 0 = [] := by
    intro p h1 h2
    have hk := hi.link p h1 h2
    rw [(hd 0 hw.npos).2] at hk
    obtain ⟨hk | hk, h3⟩ := hk
    · rcases hk.perm with ⟨_, _, h4⟩ | ⟨h4, _⟩ | ⟨h4, _⟩
      · exact ⟨h4, h3⟩
      · cases h4
      · cases h4
    · have := hk.pc
      rw [(hd p h2).2] at this
      cases this
  have hch : ∀ p q, eff g p q = [] → g.chan p q = [] := fun p q h => (List.append_eq_nil_iff.1 h).1
  intro p q hp hq
  by_cases hp0 : p = 0
  · subst hp0
    by_cases hq0 : q = 0
    · subst hq0; exact hi.self
    · exact hch _ _ (hcl q (by omega) hq).1
  · by_cases hq0 : q = 0
    · subst hq0
      exact hch _ _ (hcl p (by omega) hp).2
    · exact hi.cross p q (by omega) (by omega)

/-- **C56**, end: there is no infinite execution, so with the theorem before, all processes
get to the end whatever happens in between. Missing as above. -/
theorem C56_terminates_partial (hw : w.OK) (f : Nat → Sys) (h0 : f 0 = init) : ∃ i, ¬ Step w.cfg (f i) (f (i + 1)) :=
  no_inf hw f (h0 ▸ .init)

/-! ### Executions -/

/-- All actions of `n` processes. -/
def allActs (n : Nat) : List Act :=
  (List.range n).flatMap fun p => .write p :: .go p :: .enter p :: (List.range n).map fun q => .handle p q

/-- The state after at most `k` steps, always with the first possible action; stops before a failure. -/
def auto (c : Cfg) : Nat → Sys → Sys
  | 0, g => g
  | k + 1, g =>
    match (allActs c.n).findSome? (act c g) with
    | some (some g') => auto c k g'
    | _ => g

theorem auto_reach {c : Cfg} : ∀ {k : Nat} {g : Sys}, Reach c g → Reach c (auto c k g)
  | 0, _, h => h
  | k + 1, g, h => by
    unfold auto
    split
    · rename_i g' hg
      obtain ⟨a, _, ha⟩ := List.exists_of_findSome?_eq_some hg
      exact auto_reach (.step h ⟨a, ha⟩)
    · exact h

/-- Nothing is possible. -/
def stuckB (c : Cfg) (g : Sys) : Bool := (allActs c.n).all fun a => (act c g a).isNone

/-- Something fails. -/
def failB (c : Cfg) (g : Sys) : Bool := (allActs c.n).any fun a => (act c g a).elim false (·.isNone)

theorem stuckB_stuck {c : Cfg} {g : Sys} (h : stuckB c g = true) (a : Act) : act c g a = none := by
  unfold stuckB at h
  rw [List.all_eq_true] at h
  by_cases ha : a ∈ allActs c.n
  · simpa using h a ha
  · unfold allActs at ha
    cases a with
    | enter p =>
      have : ¬ p < c.n := fun hp => ha (List.mem_flatMap.2 ⟨p, List.mem_range.2 hp, by simp⟩)
      simp [act, this]
    | write p =>
      have : ¬ p < c.n := fun hp => ha (List.mem_flatMap.2 ⟨p, List.mem_range.2 hp, by simp⟩)
      simp [act, this]
    | go p =>
      have : ¬ p < c.n := fun hp => ha (List.mem_flatMap.2 ⟨p, List.mem_range.2 hp, by simp⟩)
      simp [act, this]
    | handle p q =>
      have : ¬ (p < c.n ∧ q < c.n) := fun hp => ha (List.mem_flatMap.2 ⟨p, List.mem_range.2 hp.1, by simp [hp.2]⟩)
      simp only [act]
      rw [if_neg (fun h => this ⟨h.1, h.2.1⟩)]

theorem failB_fail {c : Cfg} {g : Sys} (h : failB c g = true) : ∃ a, act c g a = some none := by
  unfold failB at h
  rw [List.any_eq_true] at h
  obtain ⟨a, _, ha⟩ := h
  refine ⟨a, ?_⟩
  cases hx : act c g a with
  | none => rw [hx] at ha; cases ha
  | some r =>
    cases r with
    | none => rfl
    | some g' => rw [hx] at ha; cases ha

theorem auto_fail {c : Cfg} (k : Nat) (h : failB c (auto c k init) = true) : ∃ g a, Reach c g ∧ act c g a = some none := by
  obtain ⟨a, ha⟩ := failB_fail h
  exact ⟨_, a, auto_reach .init, ha⟩

/-! ### An example -/

/-- Three processes, two stores, three synchronizations. -/
def syncDemo : Prg where
  n := 3
  nm := fun i => if i = 0 then txt "kv" else txt "other"
  q := insSort
  rs := [
    ⟨0, fun p => if p = 1 then [(txt "b", txt "one two"), (txt "a", txt "x")] else if p = 2 then [(txt "c", txt "y")] else []⟩,
    ⟨1, fun p => if p = 0 then [(txt "a", txt "q")] else []⟩,
    ⟨0, fun p => if p = 2 then [(txt "b", txt "z"), (txt "b", txt "three")] else if p = 0 then [(txt "b", txt "three")] else []⟩]

theorem syncDemo_ok : syncDemo.OK where
  npos := by decide
  sort := insSort_isQsort
  name := by
    intro r hr
    simp only [syncDemo, List.mem_cons, List.not_mem_nil, or_false] at hr
    rcases hr with rfl | rfl | rfl
    · exact ⟨by decide, by decide, by decide⟩
    · exact ⟨by decide, by decide, by decide⟩
    · exact ⟨by decide, by decide, by decide⟩
  pair := by
    have key : ∀ r ∈ syncDemo.rs, ∀ p < 3, ∀ x ∈ r.upd p, x.1 ≠ [] ∧ x.1.length ≤ 30 ∧ (∀ c ∈ x.1, WordC c) ∧ x.2 ≠ [] ∧
        (∀ c ∈ x.2, LineC c) ∧ (∀ c ∈ x.2.head?, isWs c = false) ∧ x.1.length + x.2.length ≤ 89 := by decide +kernel
    intro r hr p hp x hx
    obtain ⟨h1, h2, h3, h4, h5, h6, h7⟩ := key r hr p hp x hx
    exact ⟨h1, h2, h3, h4, h5, h6, h7⟩
  agree := by
    have key : ∀ r ∈ syncDemo.rs, ∀ p < 3, ∀ p' < 3, ∀ x ∈ r.upd p, ∀ v', lastOf (r.upd p) x.1 ≠ none →
        lastOf (r.upd p') x.1 = some v' → lastOf (r.upd p) x.1 = some v' := by
      have key : ∀ r ∈ syncDemo.rs, ∀ p < 3, ∀ p' < 3, ∀ x ∈ r.upd p,
        lastOf (r.upd p') x.1 = none ∨ lastOf (r.upd p) x.1 = lastOf (r.upd p') x.1 := by decide +kernel
      intro r hr p hp p' hp' x hx v' _ h
      rcases key r hr p hp p' hp' x hx with h1 | h1
      · rw [h1] at h; cases h
      · rw [h1, h]
    intro r hr p hp p' hp' k v v' h h'
    have := key r hr p hp p' hp' (k, v) (lastOf_mem h) v' (by rw [h]; simp) h'
    rw [h] at this
    injection this

/-- The end of an execution of the example. -/
def syncEnd1 : Sys := auto syncDemo.cfg 500 init

theorem syncEnd1_stuck : stuckB syncDemo.cfg syncEnd1 = true := by decide +kernel

example (p : Nat) (hp : p < 3) : (syncEnd1.proc p).rd = 3 ∧ (syncEnd1.proc p).pc = .idle :=
  (C56_not_stuck_partial syncDemo_ok (auto_reach .init) (stuckB_stuck syncEnd1_stuck)).1 p hp

example (p : Nat) (hp : p < 3) : kvsGet ((syncEnd1.proc p).st 0) (txt "b") = some (some (txt "three" ++ [0])) ∧
    kvsGet ((syncEnd1.proc p).st 0) (txt "a") = some (some (txt "x" ++ [0])) ∧
    kvsGet ((syncEnd1.proc p).st 1) (txt "a") = some (some (txt "q" ++ [0])) ∧
    kvsGet ((syncEnd1.proc p).st 1) (txt "b") = some none := by
  have hd := (C56_not_stuck_partial syncDemo_ok (g := syncEnd1) (auto_reach .init) (stuckB_stuck syncEnd1_stuck)).1 p hp
  have hv := fun i k => C56_values_partial syncDemo_ok (g := syncEnd1) (auto_reach .init) hp hd.2 i k
  refine ⟨(hv _ _).trans ?_, (hv _ _).trans ?_, (hv _ _).trans ?_, (hv _ _).trans ?_⟩ <;> rw [hd.1] <;> decide +kernel

/-- A state where process 0 is in the next synchronization, but not the others. -/
example : ((auto syncDemo.cfg 40 init).proc 1).pc = .wait ∧ ((auto syncDemo.cfg 40 init).proc 0).pc = .collect 1 ∧
    ∀ a, act syncDemo.cfg (auto syncDemo.cfg 40 init) a ≠ some none :=
  ⟨by decide +kernel, by decide +kernel, C56_no_abort_partial syncDemo_ok (auto_reach .init)⟩

/-! ### Where it is false -/

/-- Two processes; a name with 30 characters for stores other than 0. -/
def cfg2 (rs : List Round) : Cfg := ⟨2, fun i => if i = 0 then txt "kv" else txt "a-name-with-thirty-characters!", rs, insSort⟩

/-- One synchronization, with changes of process 1 before. -/
def one (u : List Upd) : Round := ⟨0, fun p => if p = 1 then u else []⟩

/-- An empty string: the line with the change is ignored by process 0, which waits for ever. -/
theorem C56_empty_string_hangs : ∃ g, Reach (cfg2 [one [.sets (txt "a") []]]) g ∧
    (∀ a, act (cfg2 [one [.sets (txt "a") []]]) g a = none) ∧ (g.proc 0).rd = 0 ∧ (g.proc 1).rd = 0 :=
  ⟨auto _ 100 init, auto_reach .init, stuckB_stuck (by decide +kernel), by decide +kernel, by decide +kernel⟩

/-- A removal is not sent: afterwards the stores differ. -/
theorem C56_removal_lost :
    let c := cfg2 [one [.sets (txt "a") (txt "x")], one [.remove (txt "a")]]
    ∃ g, Reach c g ∧ (∀ a, act c g a = none) ∧ (g.proc 0).rd = 2 ∧ (g.proc 1).rd = 2 ∧
      kvsGet ((g.proc 0).st 0) (txt "a") = some (some (txt "x" ++ [0])) ∧ kvsGet ((g.proc 1).st 0) (txt "a") = some none :=
  ⟨auto _ 200 init, auto_reach .init, stuckB_stuck (by decide +kernel), by decide +kernel, by decide +kernel,
    by decide +kernel, by decide +kernel⟩

/-- A change with following removal: a null pointer is printed. -/
theorem C56_set_and_removed_fails :
    let c := cfg2 [one [.sets (txt "a") (txt "x"), .remove (txt "a")]]
    ∃ g a, Reach c g ∧ act c g a = some none :=
  auto_fail 200 (by decide +kernel)

/-- A key with 31 characters is cut: afterwards the stores differ. -/
theorem C56_long_key_cut :
    let k := List.replicate 31 97
    let c := cfg2 [one [.sets k (txt "x")]]
    ∃ g, Reach c g ∧ (∀ a, act c g a = none) ∧ (g.proc 0).rd = 1 ∧ (g.proc 1).rd = 1 ∧
      kvsGet ((g.proc 0).st 0) k = some none ∧ kvsGet ((g.proc 1).st 0) k = some (some (txt "x" ++ [0])) :=
  ⟨auto _ 200 init, auto_reach .init, stuckB_stuck (by decide +kernel), by decide +kernel, by decide +kernel,
    by decide +kernel, by decide +kernel⟩

/-- A command with 100 characters is written beyond the end of the buffer. -/
theorem C56_long_value_fails :
    let c := cfg2 [one [.sets (List.replicate 10 97) (List.replicate 80 97)]]
    ∃ g a, Reach c g ∧ act c g a = some none :=
  auto_fail 200 (by decide +kernel)

/-- A store name with 30 characters is cut: the comparison of names fails. -/
theorem C56_long_name_fails : ∃ g a, Reach (cfg2 [⟨1, fun _ => []⟩]) g ∧ act (cfg2 [⟨1, fun _ => []⟩]) g a = some none :=
  auto_fail 200 (by decide +kernel)

/-- A value which is no string is printed beyond its end. -/
theorem C56_no_string_fails :
    let c := cfg2 [one [.set (txt "a") (txt "x")]]
    ∃ g a, Reach c g ∧ act c g a = some none :=
  auto_fail 200 (by decide +kernel)

/-- A blank at the start of a string is lost; the sender gets another value for its own
change, which is not accepted in a synchronization. -/
theorem C56_blank_fails :
    let c := cfg2 [one [.sets (txt "a") (txt " x")]]
    ∃ g a, Reach c g ∧ act c g a = some none ∧ kvsGet ((g.proc 0).st 0) (txt "a") = some (some (txt "x" ++ [0])) := by
  obtain ⟨a, ha⟩ := failB_fail (c := cfg2 [one [.sets (txt "a") (txt " x")]]) (g := auto (cfg2 [one [.sets (txt "a") (txt " x")]]) 200 init) (by decide +kernel)
  exact ⟨_, a, auto_reach .init, ha, by decide +kernel⟩

/-- Different strings set for a key are noticed: an assert fails. -/
theorem C56_conflict_fails :
    let c := cfg2 [⟨0, fun p => [.sets (txt "a") (if p = 0 then txt "x" else txt "y")]⟩]
    ∃ g a, Reach c g ∧ act c g a = some none :=
  auto_fail 200 (by decide +kernel)

end Laik.Ks
