import Verif.Model.MpiAsyncSwitch
import Verif.Props.MpiSwitch
/-!
# C52: a switch of a 1d container over the MPI backend with asynchronous communication
-/

namespace Laik.Mp

open Laik.DE Laik.NX

variable {β : Type} {s : MSetup β} {F T : List TR} {skip : Nat → Int → Int → Bool} {prog : Nat → List (AAct β)}
  {m0 : Nat → Nat → β} {val : Nat → Int → List β} {cf : Nat → (Nat → List β) → Nat → List β}

/-- C52: no execution of a switch with asynchronous communication is stuck before all
processes are done, even without any buffering of messages; the number of steps is
bounded.  Missing: reductions by messages done in place or in several pieces
(`AsyncSafe`; there, `C52_in_place_race` and `C52_pieces_race` show wrong results),
switches where the backend aborts before it starts (`C52_switch_exists_iff`). -/
theorem C52_switch_completes_partial (hs : ASwitch s F T skip prog) (hm : MMemOK s F T skip m0 val) (hcf : CollOK s cf) (hsafe : AsyncSafe s F T)
    {k : Nat} {A : AState β} (h : ASteps s.n cf k (AState.start prog m0) A) :
    (ADone A ∨ ∃ A', ARStep s.n cf A A') ∧ k ≤ ((List.range s.n).map (fun p => 3 * (prog p).length)).sum := by
  refine ⟨(hs.inv hm hcf (fun p hp F' T' st hc => hsafe.noRace hs.trans hp hc) h).1, ?_⟩
  have h1 := (aleft_steps h (fun p hp => ⟨hs.out p hp, rfl, rfl⟩)).2
  have h2 := aleft_start (n := s.n) prog m0
  omega

/-- C52: when a switch with asynchronous communication is done, every process has at
every index it owns in the target the element of the only owner in the source, the
neutral element if there was no owner, or the combination of the elements of exactly
all owners.  Missing as above. -/
theorem C52_switch_delivers_partial (hs : ASwitch s F T skip prog) (hm : MMemOK s F T skip m0 val) (hcf : CollOK s cf) (hsafe : AsyncSafe s F T)
    {k : Nat} {A : AState β} (h : ASteps s.n cf k (AState.start prog m0) A) (hd : ADone A) {r : TR} (hr : r ∈ T) {i : Int} (hi : r.has i)
    {v : List β} (hv : v = readMem (A.mem r.task) ((s.ctx r.task []).cells.dst r.mapNo i) s.es) :
    (∀ q, ownersAt F s.n i = [q] → v = val q i) ∧ (ownersAt F s.n i = [] → v = s.neutral) ∧
    (2 ≤ (ownersAt F s.n i).length → Comb s.red ((ownersAt F s.n i).map (fun q => val q i)) v) := by
  subst hv
  obtain ⟨h1, h2, h3, _⟩ := (hs.inv hm hcf (fun p hp F' T' st hc => hsafe.noRace hs.trans hp hc) h).2 hd r hr i hi
  exact ⟨h1, h2, h3⟩

/-- Every execution of such a switch can be continued to its end. -/
theorem C52_switch_reaches_end (hs : ASwitch s F T skip prog) (hm : MMemOK s F T skip m0 val) (hcf : CollOK s cf) (hsafe : AsyncSafe s F T)
    {k : Nat} {A : AState β} (h : ASteps s.n cf k (AState.start prog m0) A) :
    ∃ k' A', k ≤ k' ∧ ASteps s.n cf k' (AState.start prog m0) A' ∧ ADone A' := by
  generalize hb : ((List.range s.n).map (fun p => 3 * (prog p).length)).sum = b
  obtain ⟨d, hd⟩ : ∃ d, d = b - k := ⟨_, rfl⟩
  induction d using Nat.strong_induction_on generalizing k A with
  | _ d ih =>
    obtain ⟨h1, h2⟩ := C52_switch_completes_partial hs hm hcf hsafe h
    rcases h1 with h1 | ⟨A', h1⟩
    · exact ⟨k, A, Nat.le_refl _, h, h1⟩
    · have hn := ASteps.tail h (AStep.strict h1)
      have h3 := (C52_switch_completes_partial hs hm hcf hsafe hn).2
      obtain ⟨k', st', e1, e2, e3⟩ := ih (b - (k + 1)) (by omega) hn rfl
      exact ⟨k', st', by omega, e2, e3⟩

/-- Asynchronous and blocking communication give the same result: any end of an
execution with asynchronous communication is one of an execution without. -/
theorem C52_same_as_blocking (hs : ASwitch s F T skip prog) (hm : MMemOK s F T skip m0 val) (hcf : CollOK s cf) (hsafe : AsyncSafe s F T) :
    ∃ bprog, MSwitch s F T skip bprog ∧ ∀ k A, ASteps s.n cf k (AState.start prog m0) A → ADone A →
      ∃ k' st, XSteps s.n cf k' (s.start bprog m0) st ∧ XDone st ∧ st.mem = A.mem := by
  obtain ⟨c, P, Tl, hms, hst, rfl, hstart⟩ := hs.sim hm hcf (fun p hp F' T' st hc => hsafe.noRace hs.trans hp hc)
  refine ⟨_, hms, fun k A h hd => ?_⟩
  obtain ⟨k', S, Dl, hx, hsim⟩ := sim_reach hst h
  rw [hstart] at hx
  obtain ⟨d1, d2⟩ := sim_done hsim hd
  exact ⟨k', S, hx, d1, d2.symm⟩

/-- A switch with asynchronous communication can be done under the conditions of
`C51_switch_exists_iff`. -/
theorem C52_switch_exists_iff (hT : TransOK s.n F T) (hm : ∀ p < s.n, MapsOK s F T p) (skip : Nat → Int → Int → Bool) :
    (∃ prog, ASwitch s F T skip prog) ↔ ∀ i, ownersAt F s.n i ≠ [] ∨ ownersAt T s.n i ≠ [] →
      (if (ownersAt F s.n i).length = 1 then s.redOp < 100 else s.redOp ≠ 0) ∧
      (¬ (s.useReduce = true ∧ (ownersAt F s.n i).length = s.n ∧ ((ownersAt T s.n i).length = s.n ∨ (ownersAt T s.n i).length = 1)) →
        8 < (ownersAt F s.n i).length → ownersAt T s.n i ≠ [] ∧ (ownersAt F s.n i).length ≤ 32) := by
  rw [aswitch_iff]
  exact C51_switch_exists_iff hT hm skip

/-- Without a process which is input and output of a reduction by messages, a switch
is safe; in particular if every index has at most one owner in the source. -/
theorem C52_safe_without_overlap (h : ∀ i, 2 ≤ (ownersAt F s.n i).length → ∀ p, p ∈ ownersAt F s.n i → p ∉ ownersAt T s.n i) : AsyncSafe s F T := by
  intro p hp i ⟨_, h1, hF, hTo, _⟩
  refine absurd hTo (h i ?_ p hF)
  have := List.length_pos_of_mem hF
  omega

/-! ### Cases meeting the hypotheses -/

theorem rep_owner {l : List Nat} {n p : Nat} {i : Int} (h : p ∈ ownersAt (rep l) n i) : 0 ≤ i ∧ i < 4 := by
  obtain ⟨r, hr, h⟩ := List.any_eq_true.1 (List.mem_filter.1 h).2
  rw [decide_eq_true_eq] at h
  exact ((rep_mem hr).2.2.1 i).1 h.2

theorem rep_cells {n : Nat} {u : Bool} {red : Nat → Nat → Nat} {l : List Nat} {p : Nat} {i : Int} (h : p ∈ ownersAt (rep l) n i) :
    ((numSetup n u red).ctx p []).cells.src (noAt (rep l) p i).2 i = 10 + i.toNat ∧
    ((numSetup n u red).ctx p []).cells.dst (noAt (rep l) p i).2 i = 20 + i.toNat := by
  have e : (noAt (rep l) p i).2 = 0 := by
    unfold noAt
    cases hf : (numbered (rep l)).find? (fun r => decide (r.1.task = p ∧ r.1.has i)) with
    | none =>
      obtain ⟨r, hr, h⟩ := List.any_eq_true.1 (List.mem_filter.1 h).2
      have hm := numbered_fst (rep l)
      rw [← hm] at hr
      obtain ⟨r', hr', rfl⟩ := List.mem_map.1 hr
      exact absurd h (List.find?_eq_none.1 hf r' hr')
    | some r =>
      have hr : r.1 ∈ rep l := by
        rw [← numbered_fst (rep l)]
        exact List.mem_map_of_mem (List.mem_of_find?_eq_some hf)
      exact (rep_mem hr).2.1
  rw [e]
  constructor
  · show 10 + (i - 0).toNat * 1 = _
    rw [Int.sub_zero, Nat.mul_one]
  · show 20 + (i - 0).toNat * 1 = _
    rw [Int.sub_zero, Nat.mul_one]

/-- One range per process, and different mappings: safe. -/
theorem num_safe (n : Nat) (u : Bool) (red : Nat → Nat → Nat) (l l' : List Nat) : AsyncSafe (numSetup n u red) (rep l) (rep l') := by
  intro p hp i ⟨_, _, hF, hTo, _⟩
  refine ⟨?_, fun j hj _ r hr => ?_⟩
  · rw [(rep_cells (n := n) (u := u) (red := red) hF).1, (rep_cells (n := n) (u := u) (red := red) hTo).2]
    omega
  · have h1 := rep_owner hF
    rw [← hj] at hF
    have h2 := rep_owner hF
    have hb : r.box.lo.x = 0 ∧ r.box.hi.x = 4 := by
      rcases hr with hr | hr <;> (obtain ⟨q, _, rfl⟩ := List.mem_map.1 hr; exact ⟨rfl, rfl⟩)
    rw [hb.1, hb.2]
    omega

/-- All-reduce of two of three processes by messages: the switch can be done, all
executions end, and then both have the sum. -/
example : ∃ prog, ASwitch (numSetup 3 true (· + ·)) (rep [0, 1]) (rep [0, 1]) (fun _ _ _ => false) prog ∧
    (∃ k A, ASteps 3 (collRef (numSetup 3 true (· + ·))) k (AState.start prog (fun p a => p + a)) A ∧ ADone A) ∧
    ∀ k A, ASteps 3 (collRef (numSetup 3 true (· + ·))) k (AState.start prog (fun p a => p + a)) A → ADone A →
      A.mem 0 23 = 27 ∧ A.mem 1 23 = 27 := by
  obtain ⟨_, hs'⟩ := num_switch (n := 3) (l := [0, 1]) (l' := [0, 1]) (by decide) true (· + ·)
    ⟨⟨by decide, by decide, by decide⟩, ⟨by decide, by decide, by decide⟩, by decide, by decide, fun r hr => by revert r; decide,
      fun r hr => by revert r; decide⟩
  obtain ⟨prog, hs⟩ := (aswitch_iff _ _ _ _).2 ⟨_, hs'⟩
  have hm := num_mem 3 true (· + ·) [0, 1] [0, 1] (fun p a => p + a)
  have hcf := num_coll (n := 3) (by decide) true (· + ·)
  have hsafe := num_safe 3 true (· + ·) [0, 1] [0, 1]
  have hsum : ∀ v, Comb (numSetup 3 true (· + ·)).red ([0, 1].map (fun q => [q + 13])) v → v = [27] := by
    intro v hv
    refine Comb.unique (Q := fun v => v.length = 1) (fun _ _ _ _ => rfl) ?_ ?_ hv (.app (.one [13]) (.one [14]) (List.Perm.refl _)) (by decide)
    · intro a b _ _
      show [_] = [_]
      exact congrArg (fun x => [x]) (Nat.add_comm _ _)
    · intro a b c _ _ _
      show [_] = [_]
      exact congrArg (fun x => [x]) (Nat.add_assoc _ _ _)
  refine ⟨prog, hs, ?_, ?_⟩
  · obtain ⟨k, st, _, h⟩ := C52_switch_reaches_end hs hm hcf hsafe (ASteps.refl _)
    exact ⟨k, st, h⟩
  · intro k A h hd
    have e : ownersAt (rep [0, 1]) (numSetup 3 true (· + ·)).n 3 = [0, 1] := by decide
    have h1 := (C52_switch_delivers_partial hs hm hcf hsafe h hd (r := ⟨0, 0, iv 0 4, 0⟩) (i := 3) (by decide) (by decide) rfl).2.2
    have h2 := (C52_switch_delivers_partial hs hm hcf hsafe h hd (r := ⟨1, 0, iv 0 4, 0⟩) (i := 3) (by decide) (by decide) rfl).2.2
    rw [e] at h1 h2
    exact ⟨(List.cons.inj (hsum _ (h1 (by decide)))).1, (List.cons.inj (hsum _ (h2 (by decide)))).1⟩

/-! ### Where the code does not do what is expected -/

/-- Elements of a list in another order. -/
def pick {α : Type} (l : List α) (idx : List Nat) : List (α × Nat) := idx.filterMap (fun i => (l[i]?).map (·, i))

theorem pick_sort {α : Type} {cmp : Act α × Nat → Act α × Nat → Int} {l : List (Act α)} {idx : List Nat} (h : idx.Perm (List.range l.length))
    (hz : pick l (List.range l.length) = l.zipIdx) (hp : (pick l idx).Pairwise (fun a b => cmp a b ≤ 0)) : IsPtrSort cmp l (pick l idx) :=
  ⟨hz ▸ h.filterMap _, hp⟩

/-- As `numSetup`, but the target uses the same memory as the source. -/
def placeSetup : MSetup Nat := { numSetup 3 true (· + ·) with tm := fun _ m => if m = 0 then some (10, 0) else none }

/-- Addition of `n` numbers at `b` to those at `d`. -/
def addAt (d b n : Nat) : CBody Nat := .other ((placeSetup.ctx 0 []).redLocal d b n)

def placeSt : TSt := ⟨[], [], false, false, (0, 0), (0, 0), [[0, 1]], [.red 0 4 0 0 (0, 0) (0, 0)]⟩
def noSt : TSt := ⟨[], [], false, false, (-1, -1), (-1, -1), [], []⟩

theorem place0 {u : Nat → Prop} (hu : ∀ x, 100 ≤ x → ¬ u x) : (placeSetup.ctx 0 [[0, 1]]).AsyncPrepared u 100 200 300 placeSt.ops
    [.req 2, .irecv 1 1 200 4, .isend 0 1 10 4, .wait 1, .body (addAt 10 200 4), .wait 0] := by
  refine ⟨_, pick _ [0, 3, 1, 4, 5, 2], _, ⟨_, _, _, _, pick _ [0, 1, 2], _, _, pick _ [0, 1, 2], rfl, rfl, rfl, ?_, rfl, ?_,
    pick_sort (by decide) rfl (by decide), rfl, rfl, ?_, pick_sort (by decide) rfl (by decide), rfl⟩, pick_sort (by decide) rfl (by decide), rfl, rfl⟩
  · intro x h1 _ h
    exact hu x h1 h
  · rintro x h1 _ (h | ⟨_, h⟩)
    · exact hu x (by omega) h
    · have h : x < 100 + 0 := h
      omega
  · rintro x h1 _ (h | ⟨_, h⟩ | ⟨_, h⟩)
    · exact hu x (by omega) h
    · have h : x < 100 + 0 := h
      omega
    · have h : x < 200 + 4 := h
      omega

theorem place1 {u : Nat → Prop} (hu : ∀ x, 100 ≤ x → ¬ u x) : (placeSetup.ctx 1 [[0, 1]]).AsyncPrepared u 100 200 300 placeSt.ops
    [.req 2, .irecv 0 0 200 4, .wait 0, .isend 1 0 10 4, .body (addAt 10 200 4), .wait 1] := by
  refine ⟨_, pick _ [0, 1, 2, 3, 5, 4], _, ⟨_, _, _, _, pick _ [0, 1, 2], _, _, pick _ [1, 0, 2], rfl, rfl, rfl, ?_, rfl, ?_,
    pick_sort (by decide) rfl (by decide), rfl, rfl, ?_, pick_sort (by decide) rfl (by decide), rfl⟩, pick_sort (by decide) rfl (by decide), rfl, rfl⟩
  · intro x h1 _ h
    exact hu x h1 h
  · rintro x h1 _ (h | ⟨_, h⟩)
    · exact hu x (by omega) h
    · have h : x < 100 + 0 := h
      omega
  · rintro x h1 _ (h | ⟨_, h⟩ | ⟨_, h⟩)
    · exact hu x (by omega) h
    · have h : x < 100 + 0 := h
      omega
    · have h : x < 200 + 4 := h
      omega

theorem noOps (s : MSetup Nat) (hr : s.useReduce = true) (u : Nat → Prop) (skip : Int → Int → Bool) : (s.ctx 2 []).IsAsyncSwitch u skip noSt.ops [] := by
  refine ⟨0, 0, 0, [], [], ⟨[], [], [], ⟨[], [], [], [], [], [], [], [], rfl, ?_, rfl, ?_, rfl, ?_, ⟨.nil, .nil⟩, rfl, rfl, ?_, ⟨.nil, .nil⟩, rfl⟩, ⟨.nil, .nil⟩, rfl, rfl⟩, rfl, rfl⟩
  · show [] = if s.useReduce then _ else _
    rw [hr]
    rfl
  · intro x _ h
    have h : x < 0 + 0 * s.es := h
    omega
  · intro x _ h
    have h : x < 0 + 0 := h
    omega
  · intro x _ h
    have h : x < 0 + 0 * s.es := h
    omega

def placeProg (p : Nat) : List (AAct Nat) :=
  if p = 0 then [.irecv ⟨1, 1, 200, 4⟩, .isend ⟨0, 1, 10, 4⟩, .wait 1, (placeSetup.ctx 0 []).bexec (addAt 10 200 4), .wait 0]
  else if p = 1 then [.irecv ⟨0, 0, 200, 4⟩, .wait 0, .isend ⟨1, 0, 10, 4⟩, (placeSetup.ctx 0 []).bexec (addAt 10 200 4), .wait 1]
  else []

theorem repTrans : TransOK 3 (rep [0, 1]) (rep [0, 1]) :=
  ⟨⟨by decide, by decide, by decide⟩, ⟨by decide, by decide, by decide⟩, by decide, by decide, fun r hr => by revert r; decide,
    fun r hr => by revert r; decide⟩

def placeBorders : List Border :=
  [⟨0, 0, 0, 0, true, true⟩, ⟨0, 1, 0, 0, true, true⟩, ⟨0, 0, 0, 0, true, false⟩, ⟨0, 1, 0, 0, true, false⟩,
    ⟨4, 0, 0, 0, false, true⟩, ⟨4, 1, 0, 0, false, true⟩, ⟨4, 0, 0, 0, false, false⟩, ⟨4, 1, 0, 0, false, false⟩]

theorem placeCalc (p : Nat) (st : TSt) (h : calcAddReductions 3 1 p placeBorders = some st) :
    Calculated 3 1 (rep [0, 1]) (rep [0, 1]) p (rep [0, 1]) (rep [0, 1]) st :=
  ⟨Enough.refl (n := 3) _ _ ⟨by decide, by decide, by decide⟩ (by decide), Enough.refl (n := 3) _ _ ⟨by decide, by decide, by decide⟩ (by decide),
    placeBorders, ⟨by decide, by decide⟩, h⟩

theorem place_mem (m0 : Nat → Nat → Nat) :
    MMemOK placeSetup (rep [0, 1]) (rep [0, 1]) (fun _ _ _ => false) m0 (fun p i => [m0 p (10 + i.toNat)]) where
  sep p := by
    have key : ∀ i a, CellOf (placeSetup.ctx p []).cells (rep [0, 1]) (rep [0, 1]) p i a → 0 ≤ i ∧ i < 4 ∧ a = 10 + i.toNat := by
      rintro i a (⟨r, hr, _, hi, rfl⟩ | ⟨r, hr, _, hi, rfl⟩)
      · obtain ⟨_, h1, h2, _⟩ := rep_mem hr
        rw [h1]
        refine ⟨((h2 i).1 hi).1, ((h2 i).1 hi).2, ?_⟩
        show 10 + (i - 0).toNat * 1 = _
        rw [Int.sub_zero, Nat.mul_one]
      · obtain ⟨_, h1, h2, _⟩ := rep_mem hr
        rw [h1]
        refine ⟨((h2 i).1 hi).1, ((h2 i).1 hi).2, ?_⟩
        show 10 + (i - 0).toNat * 1 = _
        rw [Int.sub_zero, Nat.mul_one]
    intro i j a b ha hb
    obtain ⟨a1, a2, a3⟩ := key i a ha
    obtain ⟨b1, b2, b3⟩ := key j b hb
    show (i = j ∧ a = b) ∨ a + 1 ≤ b ∨ b + 1 ≤ a
    omega
  skip r _ r' _ _ h := by cases h
  val r hr i hi := by
    obtain ⟨_, h1, h2, _⟩ := rep_mem hr
    rw [h1]
    show [m0 r.task (10 + i.toNat)] = [m0 r.task (10 + (i - 0).toNat * 1 + 0)]
    rw [Int.sub_zero, Nat.mul_one, Nat.add_zero]
  red a b _ _ := rfl
  neutral := rfl

theorem place_unused (p x : Nat) (hx : 100 ≤ x) : ¬ (placeSetup.ctx p []).InUse (rep [0, 1]) (rep [0, 1]) x := by
  rintro ⟨i, a, hc, _, h2⟩
  have h2 : x < a + 1 := h2
  rcases hc with ⟨r, hr, _, hi, rfl⟩ | ⟨r, hr, _, hi, rfl⟩
  · obtain ⟨_, h1, h3, _⟩ := rep_mem hr
    rw [h1] at h2
    have h2 : x < 10 + (i - 0).toNat * 1 + 1 := h2
    have := (h3 i).1 hi
    omega
  · obtain ⟨_, h1, h3, _⟩ := rep_mem hr
    rw [h1] at h2
    have h2 : x < 10 + (i - 0).toNat * 1 + 1 := h2
    have := (h3 i).1 hi
    omega

theorem place_switch : ASwitch placeSetup (rep [0, 1]) (rep [0, 1]) (fun _ _ _ => false) placeProg := by
  refine ⟨repTrans, fun p hp => ?_, fun p hp => ?_⟩
  · have hp : p < 3 := hp
    obtain rfl | rfl | rfl : p = 0 ∨ p = 1 ∨ p = 2 := by omega
    · exact ⟨_, _, placeSt, placeCalc 0 _ (by decide), 100, 200, 300, _, [], place0 (place_unused 0), rfl, rfl⟩
    · exact ⟨_, _, placeSt, placeCalc 1 _ (by decide), 100, 200, 300, _, [], place1 (place_unused 1), rfl, rfl⟩
    · exact ⟨_, _, noSt, placeCalc 2 _ (by decide), noOps _ rfl _ _⟩
  · have hp : 3 ≤ p := hp
    unfold placeProg
    rw [if_neg (by omega), if_neg (by omega)]

theorem place_steps (cf) : ∃ k A, ASteps 3 cf k (AState.start placeProg (fun p _ => p + 1)) A ∧ ADone A ∧ A.mem 0 10 = 4 ∧ A.mem 1 10 = 3 := by
  have h := ASteps.refl (n := 3) (cf := cf) (AState.start placeProg (fun p _ => p + 1))
  have h := ASteps.tail h (.strict (.irecv _ 0 _ _ rfl))
  have h := ASteps.tail h (.strict (.irecv _ 1 _ _ rfl))
  have h := ASteps.tail h (.strict (.isend _ 0 _ _ rfl))
  have h := ASteps.tail h (.strict (.meet _ 0 1 [] ⟨0, 1, 10, 4⟩ [] [] ⟨0, 0, 200, 4⟩ [] rfl (by simp) rfl (by intro y hy; cases hy) rfl (by simp) rfl rfl))
  have h := ASteps.tail h (.strict (.wait _ 1 _ _ rfl (by intro r hr; cases hr) (by intro r hr; cases hr)))
  have h := ASteps.tail h (.strict (.isend _ 1 _ _ rfl))
  have h := ASteps.tail h (.strict (.loc _ 1 _ _ rfl))
  have h := ASteps.tail h (.strict (.meet _ 1 0 [] ⟨1, 0, 10, 4⟩ [] [] ⟨1, 1, 200, 4⟩ [] rfl (by simp) rfl (by intro y hy; cases hy) rfl (by simp) rfl rfl))
  have h := ASteps.tail h (.strict (.wait _ 1 _ _ rfl (by intro r hr; cases hr) (by intro r hr; cases hr)))
  have h := ASteps.tail h (.strict (.wait _ 0 _ _ rfl (by intro r hr; cases hr) (by intro r hr; cases hr)))
  have h := ASteps.tail h (.strict (.loc _ 0 _ _ rfl))
  have h := ASteps.tail h (.strict (.wait _ 0 _ _ rfl (by intro r hr; cases hr) (by intro r hr; cases hr)))
  refine ⟨_, _, h, fun p => ?_, rfl, rfl⟩
  match p with
  | 0 => exact ⟨rfl, rfl, rfl, rfl⟩
  | 1 => exact ⟨rfl, rfl, rfl, rfl⟩
  | p + 2 => exact ⟨rfl, rfl, rfl, rfl⟩

/-- C52 is false for reductions done in place: processes 0 and 1 of 3 switch from both
having a value (1 and 2) to both having the sum, with target and source in the same
memory.  Process 1 adds the value of process 0 to its own while its own is still to be
sent: process 0 ends with 4.  The memory is as required for `C51`. -/
theorem C52_in_place_race : ∃ prog m0 val, ASwitch placeSetup (rep [0, 1]) (rep [0, 1]) (fun _ _ _ => false) prog ∧
    MMemOK placeSetup (rep [0, 1]) (rep [0, 1]) (fun _ _ _ => false) m0 val ∧ val 0 0 = [1] ∧ val 1 0 = [2] ∧
    (placeSetup.ctx 0 []).cells.dst 0 0 = 10 ∧ ∀ cf, ∃ k A, ASteps 3 cf k (AState.start prog m0) A ∧ ADone A ∧ A.mem 0 10 = 4 ∧ A.mem 1 10 = 3 := by
  refine ⟨placeProg, fun p _ => p + 1, _, place_switch, place_mem _, rfl, rfl, rfl, place_steps⟩

/-- Processes in the list own indexes 0 and 2. -/
def two (l : List Nat) : List TR := l.flatMap (fun p => [⟨p, 0, iv 0 1, 0⟩, ⟨p, 0, iv 2 3, 0⟩])

def sumSetup : MSetup Nat := numSetup 3 true (· + ·)

def twoSt : TSt := ⟨[], [], false, false, (1, 0), (1, 0), [[0, 1]], [.red 0 1 0 0 (0, 0) (0, 0), .red 2 3 0 0 (1, 0) (1, 0)]⟩

def toBuf : CBody Nat := allocItem 100 (.copyTo [⟨10, 1, 0⟩, ⟨12, 1, 1⟩])
def fromBuf : CBody Nat := allocItem 100 (.copyFrom [⟨20, 1, 0⟩, ⟨22, 1, 1⟩])

theorem two0 {u : Nat → Prop} (hu : ∀ x, 100 ≤ x → ¬ u x) : (sumSetup.ctx 0 [[0, 1]]).AsyncPrepared u 100 200 300 twoSt.ops
    [.req 2, .irecv 1 1 200 2, .body toBuf, .isend 0 1 100 2, .wait 1, .body (addAt 100 200 2), .body fromBuf, .wait 0] := by
  refine ⟨_, pick _ [0, 4, 1, 2, 5, 6, 7, 3], _, ⟨_, _, _, _, pick _ [0, 1, 2, 3, 4], _, _, pick _ [0, 1, 2, 3, 4], rfl, rfl, rfl, ?_, rfl, ?_,
    pick_sort (by decide) rfl (by decide), rfl, rfl, ?_, pick_sort (by decide) rfl (by decide), rfl⟩, pick_sort (by decide) rfl (by decide), rfl, rfl⟩
  · intro x h1 _ h
    exact hu x h1 h
  · rintro x h1 _ (h | ⟨_, h⟩)
    · exact hu x (by omega) h
    · have h : x < 100 + 2 := h
      omega
  · rintro x h1 _ (h | ⟨_, h⟩ | ⟨_, h⟩)
    · exact hu x (by omega) h
    · have h : x < 100 + 2 := h
      omega
    · have h : x < 200 + 2 := h
      omega

theorem two1 {u : Nat → Prop} (hu : ∀ x, 100 ≤ x → ¬ u x) : (sumSetup.ctx 1 [[0, 1]]).AsyncPrepared u 100 200 300 twoSt.ops
    [.req 2, .irecv 0 0 200 2, .body toBuf, .wait 0, .isend 1 0 100 2, .body (addAt 100 200 2), .body fromBuf, .wait 1] := by
  refine ⟨_, pick _ [0, 2, 1, 3, 4, 6, 7, 5], _, ⟨_, _, _, _, pick _ [0, 1, 2, 3, 4], _, _, pick _ [0, 2, 1, 3, 4], rfl, rfl, rfl, ?_, rfl, ?_,
    pick_sort (by decide) rfl (by decide), rfl, rfl, ?_, pick_sort (by decide) rfl (by decide), rfl⟩, pick_sort (by decide) rfl (by decide), rfl, rfl⟩
  · intro x h1 _ h
    exact hu x h1 h
  · rintro x h1 _ (h | ⟨_, h⟩)
    · exact hu x (by omega) h
    · have h : x < 100 + 2 := h
      omega
  · rintro x h1 _ (h | ⟨_, h⟩ | ⟨_, h⟩)
    · exact hu x (by omega) h
    · have h : x < 100 + 2 := h
      omega
    · have h : x < 200 + 2 := h
      omega

def twoProg (p : Nat) : List (AAct Nat) :=
  if p = 0 then [.irecv ⟨1, 1, 200, 2⟩, (sumSetup.ctx 0 []).bexec toBuf, .isend ⟨0, 1, 100, 2⟩, .wait 1, (sumSetup.ctx 0 []).bexec (addAt 100 200 2),
    (sumSetup.ctx 0 []).bexec fromBuf, .wait 0]
  else if p = 1 then [.irecv ⟨0, 0, 200, 2⟩, (sumSetup.ctx 0 []).bexec toBuf, .wait 0, .isend ⟨1, 0, 100, 2⟩, (sumSetup.ctx 0 []).bexec (addAt 100 200 2),
    (sumSetup.ctx 0 []).bexec fromBuf, .wait 1]
  else []

def twoBorders : List Border :=
  [0, 1, 2, 3].flatMap (fun i => [⟨i, 0, (i / 2).toNat, 0, i % 2 = 0, true⟩, ⟨i, 1, (i / 2).toNat, 0, i % 2 = 0, true⟩,
    ⟨i, 0, (i / 2).toNat, 0, i % 2 = 0, false⟩, ⟨i, 1, (i / 2).toNat, 0, i % 2 = 0, false⟩])

theorem twoCalc (p : Nat) (st : TSt) (h : calcAddReductions 3 1 p twoBorders = some st) :
    Calculated 3 1 (two [0, 1]) (two [0, 1]) p (two [0, 1]) (two [0, 1]) st :=
  ⟨Enough.refl (n := 3) _ _ ⟨by decide, by decide, by decide⟩ (by decide), Enough.refl (n := 3) _ _ ⟨by decide, by decide, by decide⟩ (by decide),
    twoBorders, ⟨by decide, by decide⟩, h⟩

theorem two_mem' {r : TR} (h : r ∈ two [0, 1]) : r.mapNo = 0 ∧ (∀ i, r.has i → i = 0 ∨ i = 2) := by
  obtain ⟨p, _, h⟩ := List.mem_flatMap.1 h
  simp only [List.mem_cons, List.not_mem_nil, or_false] at h
  rcases h with rfl | rfl
  · refine ⟨rfl, fun i hi => ?_⟩
    have h1 : 0 ≤ i := hi.1
    have h2 : i < 1 := hi.2
    omega
  · refine ⟨rfl, fun i hi => ?_⟩
    have h1 : 2 ≤ i := hi.1
    have h2 : i < 3 := hi.2
    omega

theorem two_cells {p : Nat} {i : Int} {a : Nat} (h : CellOf (sumSetup.ctx p []).cells (two [0, 1]) (two [0, 1]) p i a) :
    (i = 0 ∨ i = 2) ∧ (a = 10 + i.toNat ∨ a = 20 + i.toNat) := by
  rcases h with ⟨r, hr, _, hi, rfl⟩ | ⟨r, hr, _, hi, rfl⟩
  · obtain ⟨h1, h2⟩ := two_mem' hr
    rw [h1]
    refine ⟨h2 i hi, Or.inl ?_⟩
    show 10 + (i - 0).toNat * 1 = _
    rw [Int.sub_zero, Nat.mul_one]
  · obtain ⟨h1, h2⟩ := two_mem' hr
    rw [h1]
    refine ⟨h2 i hi, Or.inr ?_⟩
    show 20 + (i - 0).toNat * 1 = _
    rw [Int.sub_zero, Nat.mul_one]

theorem two_mem (m0 : Nat → Nat → Nat) :
    MMemOK sumSetup (two [0, 1]) (two [0, 1]) (fun _ _ _ => false) m0 (fun p i => [m0 p (10 + i.toNat)]) where
  sep p := by
    intro i j a b ha hb
    obtain ⟨a1, a2⟩ := two_cells ha
    obtain ⟨b1, b2⟩ := two_cells hb
    show (i = j ∧ a = b) ∨ a + 1 ≤ b ∨ b + 1 ≤ a
    omega
  skip r _ r' _ _ h := by cases h
  val r hr i hi := by
    obtain ⟨h1, h2⟩ := two_mem' hr
    rw [h1]
    show [m0 r.task (10 + i.toNat)] = [m0 r.task (10 + (i - 0).toNat * 1 + 0)]
    rw [Int.sub_zero, Nat.mul_one, Nat.add_zero]
  red a b _ _ := rfl
  neutral := rfl

theorem two_switch : ASwitch sumSetup (two [0, 1]) (two [0, 1]) (fun _ _ _ => false) twoProg := by
  have hu : ∀ p x, 100 ≤ x → ¬ (sumSetup.ctx p []).InUse (two [0, 1]) (two [0, 1]) x := by
    rintro p x hx ⟨i, a, hc, _, h2⟩
    have h2 : x < a + 1 := h2
    have := two_cells hc
    omega
  refine ⟨⟨⟨by decide, by decide, by decide⟩, ⟨by decide, by decide, by decide⟩, by decide, by decide, fun r hr => by revert r; decide,
    fun r hr => by revert r; decide⟩, fun p hp => ?_, fun p hp => ?_⟩
  · have hp : p < 3 := hp
    obtain rfl | rfl | rfl : p = 0 ∨ p = 1 ∨ p = 2 := by omega
    · exact ⟨_, _, twoSt, twoCalc 0 _ (by decide), 100, 200, 300, _, [], two0 (hu 0), rfl, rfl⟩
    · exact ⟨_, _, twoSt, twoCalc 1 _ (by decide), 100, 200, 300, _, [], two1 (hu 1), rfl, rfl⟩
    · exact ⟨_, _, noSt, twoCalc 2 _ (by decide), noOps _ rfl _ _⟩
  · have hp : 3 ≤ p := hp
    unfold twoProg
    rw [if_neg (by omega), if_neg (by omega)]

/-- C52 is false for reductions of several pieces, even with different memory for
source and target: these are combined into one reduction with the same buffer for
input and result.  Process 0 ends with 4 at index 0, where values are 1 and 2. -/
theorem C52_pieces_race : ∃ prog m0 val, ASwitch sumSetup (two [0, 1]) (two [0, 1]) (fun _ _ _ => false) prog ∧
    MMemOK sumSetup (two [0, 1]) (two [0, 1]) (fun _ _ _ => false) m0 val ∧ val 0 0 = [1] ∧ val 1 0 = [2] ∧
    (sumSetup.ctx 0 []).cells.dst 0 0 = 20 ∧ ∀ cf, ∃ k A, ASteps 3 cf k (AState.start prog m0) A ∧ ADone A ∧ A.mem 0 20 = 4 ∧ A.mem 1 20 = 3 := by
  refine ⟨twoProg, fun p _ => p + 1, _, two_switch, two_mem _, rfl, rfl, rfl, fun cf => ?_⟩
  have h := ASteps.refl (n := 3) (cf := cf) (AState.start twoProg (fun p _ => p + 1))
  have h := ASteps.tail h (.strict (.irecv _ 0 _ _ rfl))
  have h := ASteps.tail h (.strict (.loc _ 0 _ _ rfl))
  have h := ASteps.tail h (.strict (.irecv _ 1 _ _ rfl))
  have h := ASteps.tail h (.strict (.loc _ 1 _ _ rfl))
  have h := ASteps.tail h (.strict (.isend _ 0 _ _ rfl))
  have h := ASteps.tail h (.strict (.meet _ 0 1 [] ⟨0, 1, 100, 2⟩ [] [] ⟨0, 0, 200, 2⟩ [] rfl (by simp) rfl (by intro y hy; cases hy) rfl (by simp) rfl rfl))
  have h := ASteps.tail h (.strict (.wait _ 1 _ _ rfl (by intro r hr; cases hr) (by intro r hr; cases hr)))
  have h := ASteps.tail h (.strict (.isend _ 1 _ _ rfl))
  have h := ASteps.tail h (.strict (.loc _ 1 _ _ rfl))
  have h := ASteps.tail h (.strict (.meet _ 1 0 [] ⟨1, 0, 100, 2⟩ [] [] ⟨1, 1, 200, 2⟩ [] rfl (by simp) rfl (by intro y hy; cases hy) rfl (by simp) rfl rfl))
  have h := ASteps.tail h (.strict (.loc _ 1 _ _ rfl))
  have h := ASteps.tail h (.strict (.wait _ 1 _ _ rfl (by intro r hr; cases hr) (by intro r hr; cases hr)))
  have h := ASteps.tail h (.strict (.wait _ 0 _ _ rfl (by intro r hr; cases hr) (by intro r hr; cases hr)))
  have h := ASteps.tail h (.strict (.loc _ 0 _ _ rfl))
  have h := ASteps.tail h (.strict (.loc _ 0 _ _ rfl))
  have h := ASteps.tail h (.strict (.wait _ 0 _ _ rfl (by intro r hr; cases hr) (by intro r hr; cases hr)))
  refine ⟨_, _, h, fun p => ?_, rfl, rfl⟩
  match p with
  | 0 => exact ⟨rfl, rfl, rfl, rfl⟩
  | 1 => exact ⟨rfl, rfl, rfl, rfl⟩
  | p + 2 => exact ⟨rfl, rfl, rfl, rfl⟩

end Laik.Mp
