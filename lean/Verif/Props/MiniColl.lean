import Verif.Model.CollBarrier
import Verif.Model.CollSum
import Verif.Props.MiniMpi
/-!
# C54: collective operations of the TCP backend based on GLib

Broadcast, reductions, barrier, splitting of communicators, and sends with matching
receives, as LAIK uses them: called by all processes of a communicator in the same order.
-/

namespace Laik.Mm

open Function

variable {S : Comm → Prop}

/-- **C54**, results: whatever messages are lost or overtake each other, no process aborts or
gets an error, and who is done has the results wanted. Partial: reductions which are not sums,
and splits where two processes have the same hint, are excluded by the hypotheses; see below. -/
theorem C54_results_partial (hS : Sep S) {F : Flt} {ds : List Call} (hok : ∀ d ∈ ds, d.OK S)
    {s t : Nat → PS} (he : evalAll F ds s = some t) {A il ol : Nat} {L : Item → Prop} {τ : Sys PS}
    (h : Steps A L (Sys.start il ol fun p => callsP F p ds (s p)) τ) (p : Nat) :
    (τ.proc p).pc ≠ .dead ∧ (τ.proc p).pc ≠ .run .err ∧
      ∀ x, (τ.proc p).pc = .run (.ret x) → x = t p := by
  have ha : ∀ d ∈ ds, d.Arg S := fun d hd => (hok d hd).arg
  simp only [← evsAll_prog hS _ ha] at h
  exact choreo_results hS (evsAll_wf ha) (run_evsAll hS hok he) h p

/-- **C54**, no deadlock: however small inboxes and outboxes are, from every state reached all
processes can go on until they are done, if no receive was given up, answers to GET and notes
that a message was taken are not lost, and messages are asked for at least twice. -/
theorem C54_completes (hS : Sep S) {N : Nat} (hN : ∀ c, S c → ∀ p ∈ c.tasks, p < N) {F : Flt}
    {ds : List Call} (hok : ∀ d ∈ ds, d.OK S) {s t : Nat → PS} (he : evalAll F ds s = some t)
    {A il ol : Nat} (hA : 2 ≤ A) {L : Item → Prop} (hL : ∀ q h b, ¬ L (.getRep q h b))
    (hD : ∀ p h, ¬ L (.disc p h)) {τ : Sys PS}
    (h : Steps A L (Sys.start il ol fun p => callsP F p ds (s p)) τ)
    (hf : ∀ p, (∀ m k, (τ.proc p).pc ≠ .failed m k) ∧
      ∀ m q h att k, (τ.proc p).pc = .getting m q h att k → att + 1 < A) :
    ∃ υ, Steps A (fun _ => False) τ υ ∧ ∀ p, p < N → (υ.proc p).pc = .run (.ret (t p)) := by
  have ha : ∀ d ∈ ds, d.Arg S := fun d hd => (hok d hd).arg
  simp only [← evsAll_prog hS _ ha] at h
  refine choreo_completes hS hN (evsAll_wf ha) (run_evsAll hS hok he) hA hL hD h fun p => ?_
  obtain ⟨h1, h2⟩ := hf p
  cases hc : (τ.proc p).pc with
  | getting m q h att k => exact h2 m q h att k hc
  | failed m k => exact absurd hc (h1 m k)
  | _ => trivial

/-- **C54**, barrier: when a process left it, all processes of the communicator are done with
what was before, and are within the barrier. -/
theorem C54_barrier (hS : Sep S) {F : Flt} {c : Comm} (hc : S c) {ds : List Call}
    (hok : ∀ d ∈ ds, d.OK S) {s t : Nat → PS} (he : evalAll F ds s = some t) {A il ol : Nat}
    {L : Item → Prop} {τ : Sys PS}
    (h : Steps A L (Sys.start il ol fun p => callsP F p (ds ++ [.barrier c]) (s p)) τ) {p q : Nat}
    (hp : p ∈ c.tasks) (hq : q ∈ c.tasks) {x : PS} (hx : (τ.proc p).pc = .run (.ret x)) :
    Leaving c tBarrier (t q) (τ.proc q).pc.abs := by
  have ha : ∀ d ∈ ds ++ [.barrier c], d.Arg S := by
    intro d hd
    rcases List.mem_append.mp hd with hd | hd
    · exact (hok d hd).arg
    · obtain rfl := List.mem_singleton.mp hd
      exact hc
  have hw := evsAll_wf (F := F) ha
  simp only [← evsAll_prog hS _ ha] at h
  have hsplit : evsAll F (ds ++ [.barrier c]) = evsAll F ds ++ barrierE c := by
    simp [evsAll, Call.evs]
  rw [hsplit] at h hw
  have hr := run_evsAll hS hok he
  have hrun : run (evsAll F ds ++ barrierE c) s = some t := by
    rw [run_append, hr]
    have := run_barrier (hS.nodup c hc) t []
    simpa [run] using this
  obtain ⟨st, hT, h0, -⟩ := Traj.of_run hrun
  obtain ⟨u, a, g, h1, h2, h3⟩ := reach hS hT h0 hw h
  have hst : st (evsAll F ds).length = t := by
    have := hT.run_take (evsAll F ds).length (by simp)
    rw [List.take_left' rfl, h0, hr] at this
    exact (Option.some.inj this).symm
  have := h3.barrier hS hc hT (h1.rd_le fun X => Nat.le_refl _) hp
    (x := x) (by rw [(h2.pc p).2, hx]; rfl) hq
  rw [hst, (h2.pc q).2] at this
  exact this

/-- **C54**, values of reductions: for integers the sum over all processes, modulo the size. -/
theorem C54_sum {F : Flt} {c : Comm} {inp : Option Nat} {out n : Nat} {ty : MTy}
    (hty : ty ≠ .double ∧ ty ≠ .float) {s t : Nat → PS} {j : Nat} (hj : j < n) :
    (∀ root R, c.tasks[root]? = some R → (Call.reduce c inp out n ty .sum root).eval F s = some t →
      elem ty.bytes ((t R).mem out) j =
        (c.tasks.map fun q => elem ty.bytes ((s q).mem (inp.getD out)) j).sum % 256 ^ ty.bytes) ∧
    ((Call.allreduce c inp out n ty .sum).eval F s = some t → ∀ p ∈ c.tasks,
      elem ty.bytes ((t p).mem out) j =
        (c.tasks.map fun q => elem ty.bytes ((s q).mem (inp.getD out)) j).sum % 256 ^ ty.bytes) := by
  refine ⟨fun root R hR he => reduce_elem hty he hR hj, fun he p hp => ?_⟩
  simp only [Call.eval, Option.bind_eq_some_iff] at he
  obtain ⟨m, h1, h2⟩ := he
  simp only [evalBcast] at h2
  split at h2
  · cases h2
  · rename_i R hR
    have h3 := reduce_elem hty h1 hR hj
    split at h2
    · rename_i hl
      obtain rfl := Option.some.inj h2
      by_cases e : p = R
      · subst e
        simpa using h3
      · have hRm : R ∈ c.tasks := List.mem_of_getElem? hR
        simp only [hp, e, true_and, not_false_eq_true, if_true, ne_eq]
        rw [elem_put hj (by simp [hl R hRm]), elem_take hj, h3]
    · cases h2

/-- **C54**, new groups: a communicator made for a new group of LAIK (backend-tcp.c 253) has
its processes in the order of ids in the group, and the own rank is the id. `ids` are the
ids in the new group for each rank in the parent group, -1 for processes which are not in it.
The arguments can be used for the other theorems. -/
theorem C54_group {c : Comm} {k : Nat} {ids : Nat → Int} (hc : S c) (hk : k ≤ 2 ^ 30)
    (hn : c.tasks.length < 2 ^ 64)
    (hid : ∀ q, q < c.tasks.length → ids q = -1 ∨ (0 ≤ ids q ∧ ids q < k))
    (hinj : ∀ q r, q < c.tasks.length → r < c.tasks.length → 0 ≤ ids q → ids q = ids r → q = r)
    (hsur : ∀ i, i < k → ∃ q, q < c.tasks.length ∧ ids q = i) (async : Bool) :
    (Call.split c async (fun r => if ids r < 0 then -1 else 0) ids).OK S ∧
    ∀ (F : Flt) (s t : Nat → PS),
      (Call.split c async (fun r => if ids r < 0 then -1 else 0) ids).eval F s = some t →
      ∀ r p, c.tasks.Nodup → c.tasks[r]? = some p → 0 ≤ ids r → ∃ g : Got,
        (t p).comms = (s p).comms ++ [g] ∧ (g.rank : Int) = ids r ∧ g.tasks.length = k ∧
        g.gen = c.gen + 1 ∧
        ∀ q, q < c.tasks.length → 0 ≤ ids q → g.tasks[(ids q).toNat]? = c.tasks[q]? := by
  refine ⟨⟨hc, hn, fun r hr => ?_, fun q r hq hr h1 h2 h3 => ?_⟩, fun F s t he r p hd hp h0 => ?_⟩
  · have e1 : (2 : Int) ^ 30 = 1073741824 := by norm_num
    have e2 : (2 : Int) ^ 31 = 2147483648 := by norm_num
    have e3 : (2 : Nat) ^ 30 = 1073741824 := by norm_num
    have := hid r hr
    rw [e3] at hk
    rw [e1, e2]
    refine ⟨?_, ?_, by omega, by omega⟩ <;> dsimp only <;> split <;> omega
  · refine hinj q r hq hr ?_ h3
    by_cases h : ids q < 0
    · exact absurd (if_pos h) h2
    · omega
  · have hr := (List.getElem?_eq_some_iff.mp hp).1
    simp only [Call.eval] at he
    obtain rfl := Option.some.inj he
    have h1 := List.mem_of_getElem? hp
    have h2 : c.tasks.idxOf p = r := by
      rw [← proc_eq hp]
      exact idxOf_proc hd hr
    refine ⟨_, by simp only [h1, if_true, h2]; rfl, ?_⟩
    exact group_split hid hinj hsur hr h0

/-! ### where the code does something else than MPI -/

/-- **C54**: reductions other than sums end with an error at the root, for more than one
process. LAIK can ask for them (backend-tcp.c 278-291). -/
theorem C54_operations {F : Flt} {c : Comm} {inp : Option Nat} {out n : Nat} {ty : MTy} {op : MOp}
    (hop : op ≠ .sum) (hc : 2 ≤ c.tasks.length) {root R : Nat} (hn : c.tasks.Nodup)
    (hR : c.tasks[root]? = some R) (ds : List Call) (s : PS) :
    (∃ m, callsP F R (.reduce c inp out n ty op root :: ds) s = .recv m fun _ => .err) ∧
    (root = 0 → ∃ m, callsP F R (.allreduce c inp out n ty op :: ds) s =
      .recv m fun _ => .err) := by
  have hi : c.tasks.idxOf R = root := by
    rw [← proc_eq hR]
    exact idxOf_proc hn (List.getElem?_eq_some_iff.mp hR).1
  have hm := List.mem_of_getElem? hR
  have hl : others c.tasks.length root ≠ [] := by
    intro e
    have h1 : (if root = 0 then 1 else 0) ∈ others c.tasks.length root :=
      mem_others.mpr ⟨by split <;> omega, by split <;> omega⟩
    rw [e] at h1
    cases h1
  obtain ⟨r, rs, hrs⟩ := List.exists_cons_of_ne_nil hl
  have hg : ∀ s b, reduceGot F ty op out n s b = none := by
    intro s b
    simp only [reduceGot]
    split
    · rfl
    · cases op with
      | sum => exact absurd rfl hop
      | _ => rfl
  refine ⟨⟨⟨c, root, tReduce, r, 0⟩, ?_⟩, fun h0 => ⟨⟨c, root, tReduce, r, 0⟩, ?_⟩⟩
  · simp only [callsP, Call.comm, hm, if_true, Call.prog, hi, reduceP, hrs, recvAll, hg]
  · subst h0
    simp only [callsP, Call.comm, hm, if_true, Call.prog, hi, allreduceP, reduceP, hrs, recvAll, hg]

/-- No addition. -/
def noFlt : Flt := ⟨fun _ _ => 0, fun _ _ => 0⟩

/-- Nothing in memory. -/
def ps0 : PS := ⟨fun _ => [], [], []⟩

/-- The world of two processes is split. -/
def tie (hint : Nat → Int) : List Call := [.split w2 true (fun _ => 0) hint]

theorem tie_run {hint : Nat → Int} {x y : List Got}
    (h : (run (evsAll noFlt (tie hint)) fun _ => ps0).map (fun t => ((t 0).comms, (t 1).comms)) =
      some (x, y)) :
    ∃ υ X Y, Steps 2 (fun _ => False)
      (Sys.start 0 0 fun p => callsP noFlt p (tie hint) ps0) υ ∧
      (υ.proc 0).pc = .run (.ret X) ∧ (υ.proc 1).pc = .run (.ret Y) ∧ X.comms = x ∧ Y.comms = y := by
  obtain ⟨t, h1, h2⟩ := Option.map_eq_some_iff.mp h
  have ha : ∀ d ∈ tie hint, d.Arg (· = w2) := by
    intro d hd
    obtain rfl := List.mem_singleton.mp hd
    rfl
  obtain ⟨υ, h3, h4⟩ := choreo_completes w2_sep (N := 2) (fun c hc p hp => by
      subst hc
      simp [w2] at hp
      omega) (evsAll_wf ha) h1 (A := 2) (il := 0) (ol := 0) (Nat.le_refl _) (L := fun _ => False)
    (fun _ _ _ h => h) (fun _ _ h => h) .refl fun p => trivial
  simp only [evsAll_prog w2_sep _ ha] at h3
  simp only [Prod.mk.injEq] at h2
  exact ⟨υ, t 0, t 1, h3, h4 0 (by decide), h4 1 (by decide), h2⟩

/-- **C54**: with the same hint (for MPI this means to keep the order), each process has
itself first: both are rank 0, and do not agree on the processes. -/
theorem C54_ties_witness : ∃ υ X Y, Steps 2 (fun _ => False)
    (Sys.start 0 0 fun p => callsP noFlt p (tie fun _ => 0) ps0) υ ∧
    (υ.proc 0).pc = .run (.ret X) ∧ (υ.proc 1).pc = .run (.ret Y) ∧
    X.comms = [⟨[0, 1], 0, 2⟩] ∧ Y.comms = [⟨[1, 0], 0, 2⟩] :=
  tie_run (by decide +kernel)

/-- **C54**: with hints far apart, the order is wrong: process 0 has hint 2147483647,
process 1 has hint -2 and should be first. -/
theorem C54_hints_witness : ∃ υ X Y, Steps 2 (fun _ => False)
    (Sys.start 0 0 fun p => callsP noFlt p (tie fun r => if r = 0 then 2 ^ 31 - 1 else -2) ps0) υ ∧
    (υ.proc 0).pc = .run (.ret X) ∧ (υ.proc 1).pc = .run (.ret Y) ∧
    X.comms = [⟨[0, 1], 0, 2⟩] ∧ Y.comms = [⟨[0, 1], 1, 2⟩] :=
  tie_run (by decide +kernel)

/-! ### examples -/

/-- Buffer 0 has two elements of type int32: 250 + p, and 7. -/
def exPs (p : Nat) : PS := ⟨fun x => if x = 0 then leN 4 (250 + p) ++ leN 4 7 else List.replicate 3 (UInt8.ofNat p), [], []⟩

/-- Calls by two processes; the split changes the order. -/
def exDs : List Call :=
  [.allreduce w2 none 0 2 .int32 .sum, .barrier w2, .split w2 true (fun _ => 0) (fun r => -r),
    .p2p w2 1 0 5 1 2 1 3, .bcast w2 1 3 .uint8 0]

theorem exDs_ok : ∀ d ∈ exDs, d.OK (· = w2) := by
  intro d hd
  simp only [exDs, List.mem_cons, List.not_mem_nil, or_false] at hd
  rcases hd with rfl | rfl | rfl | rfl | rfl
  · exact ⟨rfl, by decide⟩
  · rfl
  · refine ⟨rfl, by decide, ?_, ?_⟩
    · intro r hr
      have : r < 2 := hr
      refine ⟨?_, ?_, ?_, ?_⟩ <;> norm_num <;> omega
    · intro q r _ _ _ _ h
      dsimp only at h
      omega
  · exact ⟨rfl, by decide, by decide, by decide⟩
  · exact ⟨rfl, by decide⟩

theorem exDs_eval : ∃ t, evalAll noFlt exDs exPs = some t ∧ [0, 1].map (fun p =>
    ((t p).mem 0, (t p).mem 1, (t p).comms)) =
    [([245, 1, 0, 0, 14, 0, 0, 0], [1, 1, 0], [⟨[1, 0], 1, 2⟩]),
      ([245, 1, 0, 0, 14, 0, 0, 0], [1, 1, 0], [⟨[1, 0], 0, 2⟩])] := by
  have h1 : (evalAll noFlt exDs exPs).isSome := by decide +kernel
  obtain ⟨t, ht⟩ := Option.isSome_iff_exists.mp h1
  have h2 := run_evsAll w2_sep exDs_ok ht
  have h3 : (run (evsAll noFlt exDs) exPs).map (fun t => [0, 1].map fun p =>
      ((t p).mem 0, (t p).mem 1, (t p).comms)) =
      some [([245, 1, 0, 0, 14, 0, 0, 0], [1, 1, 0], [⟨[1, 0], 1, 2⟩]),
        ([245, 1, 0, 0, 14, 0, 0, 0], [1, 1, 0], [⟨[1, 0], 0, 2⟩])] := by
    decide +kernel
  rw [h2] at h3
  exact ⟨t, ht, Option.some.inj h3⟩

/-- Both processes can finish, with boxes for no message at all, and have 250 + 251. -/
example : ∃ t υ, evalAll noFlt exDs exPs = some t ∧ Steps 2 (fun _ => False)
    (Sys.start 0 0 fun p => callsP noFlt p exDs (exPs p)) υ ∧
    (∀ p, p < 2 → (υ.proc p).pc = .run (.ret (t p))) ∧
    (t 1).mem 0 = [245, 1, 0, 0, 14, 0, 0, 0] ∧ (t 0).comms = [⟨[1, 0], 1, 2⟩] := by
  obtain ⟨t, h1, h2⟩ := exDs_eval
  obtain ⟨υ, h3, h4⟩ := C54_completes w2_sep (N := 2) (fun c hc p hp => by
      subst hc
      simp [w2] at hp
      omega) exDs_ok h1 (A := 2) (il := 0) (ol := 0) (Nat.le_refl _) (L := fun _ => False)
    (fun _ _ _ h => h) (fun _ _ h => h) .refl fun p => ⟨(by intro m k h; cases h),
      by intro m q h att k h'; cases h'⟩
  simp only [List.map_cons, List.map_nil, List.cons.injEq, Prod.mk.injEq, and_true] at h2
  exact ⟨t, υ, h1, h3, h4, h2.2.1, h2.1.2.2⟩

/-- Case for `C54_results_partial`: the state above. -/
example (t : Nat → PS) (h : evalAll noFlt exDs exPs = some t) (τ : Sys PS)
    (h' : Steps 2 (fun _ => True) (Sys.start 0 0 fun p => callsP noFlt p exDs (exPs p)) τ) (x : PS)
    (hx : (τ.proc 1).pc = .run (.ret x)) : x = t 1 :=
  (C54_results_partial w2_sep exDs_ok h h' 1).2.2 x hx

/-- Case for `C54_barrier`: a process left. -/
example : ∃ τ x, Steps 2 (fun _ => False)
    (Sys.start 0 0 fun p => callsP noFlt p ([] ++ [.barrier w2]) (exPs p)) τ ∧
    (τ.proc 0).pc = .run (.ret x) ∧ Leaving w2 tBarrier (exPs 1) (τ.proc 1).pc.abs := by
  obtain ⟨υ, h3, h4⟩ := C54_completes w2_sep (N := 2) (ds := [.barrier w2]) (fun c hc p hp => by
      subst hc
      simp [w2] at hp
      omega) (fun d hd => by
      obtain rfl := List.mem_singleton.mp hd
      rfl) (F := noFlt) (s := exPs) rfl (A := 2) (il := 0) (ol := 0) (Nat.le_refl _)
    (L := fun _ => False)
    (fun _ _ _ h => h) (fun _ _ h => h) .refl fun p => ⟨(by intro m k h; cases h),
      by intro m q h att k h'; cases h'⟩
  exact ⟨υ, _, h3, h4 0 (by decide), C54_barrier w2_sep (by rfl) (ds := []) (fun d hd => by cases hd)
    (by rfl) h3 (by decide) (by decide) (h4 0 (by decide))⟩

/-- Case for `C54_sum`: two processes. -/
example : ((Call.allreduce w2 none 0 2 .int32 .sum).eval noFlt exPs).map
    (fun t => elem 4 ((t 1).mem 0) 0) = some 501 := by
  decide +kernel

/-- Case for `C54_group`: processes 2 and 0 of three, in this order. -/
example (t : Nat → PS) (h : (Call.split ⟨0, [0, 1, 2], 0⟩ true
    (fun r => if [1, -1, 0].getD r (-1 : Int) < 0 then -1 else 0)
    fun r => [1, -1, 0].getD r (-1 : Int)).eval noFlt (fun _ => ps0) = some t) :
    ∃ g : Got, (t 2).comms = [g] ∧ g.rank = 0 ∧ g.tasks[1]? = some 0 := by
  obtain ⟨g, h1, h2, -, -, h5⟩ := (C54_group (S := fun _ => True) (c := ⟨0, [0, 1, 2], 0⟩) (k := 2)
    (ids := fun r => [1, -1, 0].getD r (-1 : Int)) trivial (by decide) (by decide) (by decide)
    (by
      have : ∀ q < 3, ∀ r < 3, 0 ≤ [1, -1, 0].getD q (-1 : Int) →
        [1, -1, 0].getD q (-1 : Int) = [1, -1, 0].getD r (-1) → q = r := by decide
      exact fun q r hq hr => this q hq r hr)
    (by decide) true).2 noFlt _ t h 2 2 (by decide) (by rfl) (by decide)
  exact ⟨g, h1, by simpa using h2, h5 0 (by decide) (by decide)⟩

/-- Case for `C54_operations`: `MPI_MAX`. -/
example : ∃ m, callsP noFlt 0 [.allreduce w2 none 0 2 .int32 .max] (exPs 0) =
    .recv m fun _ => .err := by
  obtain ⟨-, h⟩ := C54_operations (F := noFlt) (c := w2) (inp := none) (out := 0) (n := 2)
    (ty := .int32) (op := .max) (by decide) (by decide) (root := 0) (R := 0) (by decide) (by rfl) []
    (exPs 0)
  exact h rfl

end Laik.Mm
