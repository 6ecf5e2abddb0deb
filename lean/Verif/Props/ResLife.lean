import Verif.Model.ResLifeRun
/-!
# C69: life of mapping lists and reservations

Calls of an application on one container with any number of reservations and prepared
sequences, in any order.  The specification (`Verif/Spec/ResLife.lean`) says from the
earlier calls only which calls are allowed and what the container contains.
-/

namespace Laik.Rl

/-- For every history of calls: no fault occurs if and only if every call was allowed. -/
theorem C69_runs_iff {V : Type} (pr : Bool) (h : Hist V) : (∃ s, run pr h = .ok s) ↔ Legal pr h := by
  constructor
  · rintro ⟨s, hs⟩
    apply Classical.byContradiction
    intro hn
    obtain ⟨e, he⟩ := (run_spec pr h).2 hn
    rw [hs] at he
    cases he
  · intro hl
    obtain ⟨s, _, hs, _⟩ := (run_spec pr h).1 hl
    exact ⟨s, hs⟩

/-- What is found in the container is what was written last, if kept by all switches
since then.  Missing: switches between different allocations of one reservation (see
`C69_realloc_loses`). -/
theorem C69_value_partial {V : Type} (pr : Bool) (h : Hist V) (hl : Legal pr h) (hx : NoCross pr h) (v : V) (hv : content pr h = some v) :
    ∃ s, run pr h = .ok s ∧ s.value = some v := by
  obtain ⟨s, _, hs, _, hc⟩ := (run_spec pr h).1 hl
  obtain ⟨l, o, a, b, _, d⟩ := hc hx v hv
  refine ⟨s, hs, ?_⟩
  unfold St.value
  rw [a, Option.bind_some, b, Option.bind_some, d]

/-- If no reservation is allocated twice, no mapping list is lost: lists not freed are
active or belong to a reservation not freed.  Missing: reservations allocated more than
once (see `C69_realloc_leaks`). -/
theorem C69_no_leak_partial {V : Type} (pr : Bool) (h : Hist V) (ho : OnceAlloc h) (s : St V) (hs : run pr h = .ok s) (l : Nat) : ¬ s.Lost l := by
  obtain ⟨s', tag, hs', H, _⟩ := (run_spec pr h).1 ((C69_runs_iff pr h).1 ⟨s, hs⟩)
  rw [hs] at hs'
  cases hs'
  rintro ⟨⟨o, h1, h2⟩, h3, h4⟩
  have hl := (List.getElem?_eq_some_iff.1 h1).1
  have x := H.list l o h1
  unfold ListOK at x
  -- reservations not freed
  have key : ∀ r t m, gen h r = some (t, m) → GenOK h r t → ∃ ro, s.ress[r]? = some ro ∧ ro.live = true ∧ ResOK h s.lists.length tag r ro := by
    intro r t m hg hk
    have hf : ¬ Freed h r := fun hf => hk ⟨hf, m, hg⟩
    obtain ⟨ro, _, b, c⟩ := H.getRes ⟨(H.genlt r t m hg).1, hf⟩
    exact ⟨ro, b, c.live.2 hf, c⟩
  cases e : tag l with
  | own =>
    rw [e] at x
    exact h3 (x.2.2.1 h2)
  | ent r t i =>
    rw [e] at x
    obtain ⟨m, hg⟩ := H.once ho l r t hl (Or.inr ⟨i, e⟩)
    obtain ⟨ro, a, b, c⟩ := key r t m hg (x.2.2.1.1 h2)
    obtain ⟨p, l', d⟩ := c.full t m i hg (H.entlt l r t m i hl e hg)
    obtain ⟨t', m', f1, f2, f3, f4⟩ := c.ent i p l' d
    rw [hg] at f1
    cases f1
    have := H.inj l l' hl f3 (e.trans f4.symm) (by rw [e]; exact fun h => nomatch h)
    subst this
    exact (h4 r ro a b).2 _ (List.mem_of_getElem? d) rfl
  | bas r t =>
    rw [e] at x
    obtain ⟨m, hg⟩ := H.once ho l r t hl (Or.inl e)
    obtain ⟨ro, a, b, c⟩ := key r t m hg (x.2.1.1 h2)
    obtain ⟨b', d⟩ := c.based t m hg
    obtain ⟨t', m', f1, f2, f3⟩ := c.base b' d
    rw [hg] at f1
    cases f1
    have := H.inj l b' hl f2 (e.trans f3.symm) (by rw [e]; exact fun h => nomatch h)
    subst this
    exact (h4 r ro a b).1 d

/-- After the reservation given last was freed, every switch reads freed memory. -/
theorem C69_switch_dangling {V : Type} (pr : Bool) (h : Hist V) (hl : Legal pr h) (r : Nat) (hr : used h = some r) (hf : Freed h r) (p : Nat) (keep : Bool) :
    run pr (.switch p keep :: h) = .error .ub := by
  obtain ⟨s, tag, hs, H, _⟩ := (run_spec pr h).1 hl
  show (match run pr h with | .error e => .error e | .ok s => step pr s (.switch p keep)) = Except.error Fault.ub
  rw [hs]
  show switchTo s p keep = _
  unfold switchTo
  rw [H.prepare_bad (fun hu => (hu r hr).2 hf)]

/-- If the reservation with the contents of the container is freed, and was not allocated
again since the switch, every access to the contents is to freed memory. -/
theorem C69_access_dangling {V : Type} (pr : Bool) (h : Hist V) (hl : Legal pr h) (p r t i n : Nat) (hn : now pr h = some (p, .res r t i))
    (hg : gen h r = some (t, n)) (hf : Freed h r) (v : V) : run pr (.write v :: h) = .error .ub := by
  obtain ⟨s, tag, hs, H, _⟩ := (run_spec pr h).1 hl
  show (match run pr h with | .error e => .error e | .ok s => step pr s (.write v)) = Except.error Fault.ub
  rw [hs]
  obtain ⟨l, o, a, b, _, c⟩ := H.active hn
  have hlive : ¬ o.live = true := fun hc => c.1 hc r t i rfl ⟨hf, n, hg⟩
  show (match s.act with
    | none => .error .assert
    | some l => match getList s l with
      | .error e => .error e
      | .ok o => if o.has then .ok { s with mem := upd s.mem o.base (some v) } else .error .assert) = Except.error Fault.ub
  rw [a]
  simp only
  rw [getList_bad b hlive]

/-- There is no way back: when all reservations were freed after one was given to the
container, no switch is possible any more, and "no reservation" can not be given. -/
theorem C69_no_way_back {V : Type} (pr : Bool) (h : Hist V) (hl : Legal pr h) (hu : used h ≠ none) (hf : ∀ r < made h, Freed h r) :
    (∀ p keep, run pr (.switch p keep :: h) = .error .ub) ∧ run pr (.use none :: h) = .error .ub := by
  constructor
  · intro p keep
    obtain ⟨s, tag, hs, H, _⟩ := (run_spec pr h).1 hl
    show (match run pr h with | .error e => .error e | .ok s => step pr s (.switch p keep)) = Except.error Fault.ub
    rw [hs]
    show switchTo s p keep = _
    unfold switchTo
    rw [H.prepare_bad (fun hk => by
      cases e : used h with
      | none => exact hu e
      | some r => exact (hk r e).2 (hf r (hk r e).1))]
  · obtain ⟨s, tag, hs, H, _⟩ := (run_spec pr h).1 hl
    show (match run pr h with | .error e => .error e | .ok s => step pr s (.use none)) = Except.error Fault.ub
    rw [hs]
    rfl

/-! ### Decisions, to check the examples -/

/-- Result of a history: contents, or fault. -/
def outcome {V : Type} (pr : Bool) (h : List (Call V)) : Fault ⊕ Option V :=
  match run pr h.reverse with
  | .error e => .inl e
  | .ok s => .inr s.value

/-- Two reservations in turn, as in examples/jac3d.c 504-555: the new one is given and
switched to before the old one is freed. -/
def pingPong : List (Call Nat) :=
  [.new, .add 0 1, .alloc 0, .use (some 0), .switch 1 false, .write 7,
   .new, .add 1 2, .alloc 1, .use (some 1), .switch 2 true, .free 0, .write 8,
   .new, .add 2 1, .add 2 2, .alloc 2, .use (some 2), .switch 1 true, .free 1, .calc (some 1) 2 (some 2) (some 2) true, .exec 0]

/-- Allocation again: contents are in the old memory, and lost in the next switch as both
lists are of the same reservation (src/data.c 558). -/
def again : List (Call Nat) :=
  [.new, .add 0 1, .alloc 0, .use (some 0), .switch 1 false, .write 7, .add 0 2, .alloc 0, .switch 2 true]

/-- `NoCross` as a test. -/
def noCross (pr : Bool) : Hist Nat → Bool
  | [] => true
  | c :: h => noCross pr h && match keeps pr h c, now pr h with
    | some p, some (_, .res r t _) => (match placeFor h p true with
      | .res r' t' _ => r != r' || t == t'
      | .own _ => true)
    | _, _ => true

theorem noCross_spec (pr : Bool) : ∀ h : Hist Nat, noCross pr h = true → NoCross pr h := by
  intro h
  induction h with
  | nil => exact fun _ => trivial
  | cons c h ih =>
    intro e
    unfold noCross at e
    rw [Bool.and_eq_true] at e
    refine ⟨ih e.1, fun p hp f r t i t' i' h1 h2 => ?_⟩
    have e := e.2
    rw [hp, h1] at e
    simp only at e
    rw [h2] at e
    simpa using e

example : outcome true pingPong = .inr (some 8) := by decide
example : Legal true pingPong.reverse := (C69_runs_iff true _).1 (by
  have : ∃ v, outcome true pingPong = .inr v := ⟨some 8, by decide⟩
  unfold outcome at this
  cases e : run true pingPong.reverse with
  | ok s => exact ⟨s, rfl⟩
  | error f => rw [e] at this; obtain ⟨v, hv⟩ := this; cases hv)
example : content true pingPong.reverse = some 8 := by decide
example : OnceAlloc pingPong.reverse := ⟨⟨⟨trivial, by decide⟩, by decide⟩, by decide⟩

example : NoCross true pingPong.reverse := noCross_spec true _ (by decide)
-- hypotheses of `C69_switch_dangling`, `C69_access_dangling` and `C69_no_way_back`
example : let h : Hist Nat := [.free 0, .switch 1 false, .use (some 0), .alloc 0, .add 0 1, .new]
    outcome true h.reverse = .inr none ∧ used h = some 0 ∧ Freed h 0 ∧ now true h = some (1, .res 0 2 0) ∧ gen h 0 = some (2, 1) ∧ made h = 1 :=
  ⟨by decide, by decide, Or.inl rfl, by decide, by decide, by decide⟩

/-- Freeing the reservation before the switch to the new one, or without giving another
one, is wrong although no pointer to it is used by the application. -/
theorem C69_free_first :
    outcome true ([.new, .add 0 1, .alloc 0, .use (some 0), .switch 1 false, .free 0, .write 7] : List (Call Nat)) = .inl .ub ∧
    outcome true ([.new, .add 0 1, .alloc 0, .use (some 0), .switch 1 false, .free 0, .switch 2 false] : List (Call Nat)) = .inl .ub ∧
    outcome true ([.new, .add 0 1, .alloc 0, .use (some 0), .switch 1 false, .switch 2 false, .free 0, .switch 3 true] : List (Call Nat)) = .inl .ub := by
  decide

/-- A reservation with entries can not be freed before it was allocated. -/
theorem C69_free_unallocated : outcome true ([.new, .add 0 1, .free 0] : List (Call Nat)) = .inl .assert := by decide

/-- Contents after an initial partitioning can not be accessed without reservation. -/
theorem C69_initial_access : outcome true ([.initial 1, .write 7] : List (Call Nat)) = .inl .assert ∧
    outcome true ([.new, .add 0 1, .alloc 0, .use (some 0), .initial 1, .write 7] : List (Call Nat)) = .inr (some 7) := by decide

/-- Contents are lost by a second allocation of a reservation, though all calls are allowed
and the switch should keep them. -/
theorem C69_realloc_loses : content true again.reverse = some 7 ∧ Legal true again.reverse ∧ outcome true again = .inr none := by
  refine ⟨by decide, (C69_runs_iff true _).1 ?_, by decide⟩
  have : outcome true again = .inr none := by decide
  unfold outcome at this
  cases e : run true again.reverse with
  | ok s => exact ⟨s, rfl⟩
  | error f => rw [e] at this; cases this

/-- Lists of the first allocation are lost with the second one. -/
theorem C69_realloc_leaks : ∃ s, run true again.reverse = .ok s ∧ s.Lost 0 := by
  obtain ⟨s, hs⟩ := (C69_runs_iff true _).2 C69_realloc_loses.2.1
  refine ⟨s, hs, ?_⟩
  have e : s.lists[0]? = some (LObj.mk true none true 0) ∧ s.act = some 4 ∧
      s.ress = [RObj.mk true [(1, some 3), (2, some 4)] (some 2)] := by
    have : (run true again.reverse).map (fun s => (s.lists[0]?, s.act, s.ress)) = .ok (some (LObj.mk true none true 0), some 4, [RObj.mk true [(1, some 3), (2, some 4)] (some 2)]) := rfl
    rw [hs] at this
    have := Except.ok.inj this
    exact ⟨congrArg (·.1) this, congrArg (·.2.1) this, congrArg (·.2.2) this⟩
  refine ⟨⟨_, e.1, rfl⟩, by rw [e.2.1]; decide, fun r o ho _ => ?_⟩
  rw [e.2.2] at ho
  cases r with
  | succ r => simp at ho
  | zero =>
    cases ho
    exact ⟨by decide, by decide⟩

end Laik.Rl
