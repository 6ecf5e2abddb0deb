import Verif.Model.ActionStore
/-!
# C61: storage of action sequences
-/

namespace Laik.As

/-- C61: anything done with an action sequence, starting with a new one, has the result
expected for lists of actions: a loop with `nextAction` over the active sequence sees
exactly the expected actions in order, ends exactly at the end of the bytes in use
(asserts in src/action.c 959, 1087 and others), and number of actions and of rounds are
right.  No byte outside of the buffers is read or written. -/
theorem C61_refines (os : List ((Nat → Nat) × Op)) {p : Lists} (h : Lists.run ⟨[], []⟩ (os.map Prod.snd) = some p) :
    ∃ s, Seq.empty.run os = some s ∧ s.walk = some (p.act, s.act.length) ∧ s.count = p.act.length ∧ IsRounds p.act s.rounds ∧
      s.newCount = p.new.length ∧ IsRounds p.new s.newRounds := by
  obtain ⟨s, e, hs⟩ := (run_holds os holds_empty).1 p h
  refine ⟨s, e, ?_, hs.count, ?_, hs.newCount, ?_⟩
  · unfold Seq.walk
    have := walkFrom_enc p.act [] (fun a ha => (hs.okAct a ha).2.2.2)
    rw [List.nil_append, List.length_nil, Nat.zero_add] at this
    rw [hs.act, hs.count]
    exact this
  · rw [hs.rounds]
    exact isRounds _
  · rw [hs.newRounds]
    exact isRounds _

/-- C61: what is not allowed ends with a failed assert (or is not a use of a pointer to
an action of the active sequence). -/
theorem C61_refuses (os : List ((Nat → Nat) × Op)) (h : Lists.run ⟨[], []⟩ (os.map Prod.snd) = none) : Seq.empty.run os = none :=
  (run_holds os holds_empty).2 h

/-- C61: the new sequence is never changed by later actions or by changes of the active
sequence: bytes of an action stay until the sequence is activated or discarded. -/
theorem C61_active_after (os : List ((Nat → Nat) × Op)) {p : Lists} (h : Lists.run ⟨[], []⟩ (os.map Prod.snd) = some p) (junk : Nat → Nat) :
    ∃ s s', Seq.empty.run os = some s ∧ s.step junk .activate = some s' ∧ s'.walk = some (p.new, s'.act.length) := by
  obtain ⟨s, e, hs⟩ := (run_holds os holds_empty).1 p h
  obtain ⟨s', e', hs'⟩ := (step_holds hs junk .activate).1 _ rfl
  refine ⟨s, s', e, e', ?_⟩
  unfold Seq.walk
  have := walkFrom_enc p.new [] (fun a ha => (hs.okNew a ha).2.2.2)
  rw [List.nil_append, List.length_nil, Nat.zero_add] at this
  rw [hs'.act, hs'.count]
  exact this

/-! ### Transformations -/

/-- What a transformation does for an action: pass it on with a round (or its own), or
append new actions. -/
inductive Emit
  | pass (round : Option Nat)
  | new (type round tid : Nat) (par : List Nat)

def Emit.op (k : Nat) : Emit → Op
  | .pass r => .copy k r
  | .new t r i p => .add t r i p

/-- Actions which result for action `a`. -/
def Emit.acts (a : Act) : Emit → List Act
  | .pass r => if a.type = 2 then [] else [{ a with round := r.getD a.round, mark := false }]
  | .new t r i p => [⟨t, r, i, false, p⟩]

/-- Loop of a transformation, src/action.c 959-1049, 1316-1570, 2307-2330, ...: action
`k` of the active sequence is read through the pointer of the loop, `f` gives what is
done for it; `junk` as above. -/
def Seq.loop (junk : Nat → Nat) (f : Nat → Act → List Emit) : Nat → Nat → Seq → Option Seq
  | 0, _, s => some s
  | n + 1, k, s =>
    match s.ptr k with
    | none => none
    | some off =>
      match readAct s.act off with
      | none => none
      | some a => (Seq.run s ((f k a).map fun e => (junk, e.op k))).bind (Seq.loop junk f n (k + 1))

/-- A transformation with activation of the result. -/
def Seq.pass (junk : Nat → Nat) (f : Nat → Act → List Emit) (s : Seq) : Option Seq := (s.loop junk f s.count 0).bind Seq.activate

theorem emits_run {p : Lists} {k : Nat} {a : Act} (ha : p.act[k]? = some a) : ∀ {es : List Emit} {new : List Act},
    (∀ e ∈ es, ∀ b ∈ e.acts a, b.Fits) →
    Lists.run { p with new := new } (es.map (Emit.op k)) = some { p with new := new ++ es.flatMap (Emit.acts a) } := by
  intro es
  induction es with
  | nil => intro new _; simp [Lists.run]
  | cons e es ih =>
    intro new h
    have h1 := h e List.mem_cons_self
    have h2 := @ih
    rw [List.map_cons, Lists.run]
    have : Lists.step { p with new := new } (e.op k) = some { p with new := new ++ e.acts a } := by
      cases e with
      | pass r =>
        unfold Lists.step Emit.op
        simp only [ha]
        by_cases ht : a.type = 2
        · simp [ht, Emit.acts]
        · have := h1 { a with round := r.getD a.round, mark := false } (by simp [Emit.acts, ht])
          rw [if_neg ht, if_pos this.2.2.1]
          simp [Emit.acts, ht]
      | new t r i par =>
        unfold Lists.step Emit.op
        simp only
        rw [if_pos (h1 _ (by simp [Emit.acts]))]
        rfl
    rw [this, Option.bind_some, ih (fun e' he' => h e' (List.mem_cons_of_mem _ he'))]
    simp

theorem loop_holds {junk : Nat → Nat} {f : Nat → Act → List Emit} {act : List Act} : ∀ (n k : Nat) {s : Seq} {new : List Act},
    k + n = act.length → (∀ k a, act[k]? = some a → ∀ e ∈ f k a, ∀ b ∈ e.acts a, b.Fits) → Holds s ⟨act, new⟩ →
    ∃ s', s.loop junk f n k = some s' ∧
      Holds s' ⟨act, new ++ ((act.zipIdx).drop k).flatMap fun x => (f x.2 x.1).flatMap (Emit.acts x.1)⟩ := by
  intro n
  induction n with
  | zero =>
    intro k s new hk _ h
    refine ⟨s, rfl, ?_⟩
    rw [List.drop_eq_nil_of_le (by simp; omega)]
    simpa using h
  | succ n ih =>
    intro k s new hk hf h
    have hlt : k < act.length := by omega
    have ha := List.getElem?_eq_getElem hlt
    obtain ⟨e1, e2⟩ := read_eq (p := ⟨act, new⟩) h ha
    obtain ⟨s1, e3, h1⟩ := (run_holds ((f k act[k]).map fun e => (junk, e.op k)) h).1 _ (by
      rw [List.map_map]
      exact emits_run (p := ⟨act, new⟩) ha (hf k _ ha))
    obtain ⟨s2, e4, h2⟩ := ih (k + 1) (by omega) hf h1
    refine ⟨s2, ?_, ?_⟩
    · rw [Seq.loop, e1]
      simp only
      rw [e2]
      simp only
      rw [e3, Option.bind_some, e4]
    · have : act.zipIdx.drop k = (act[k], k) :: act.zipIdx.drop (k + 1) := by
        rw [List.drop_eq_getElem_cons (by simpa using hlt)]
        simp
      rw [this, List.flatMap_cons, ← List.append_assoc]
      exact h2

/-- C61: a transformation of an active sequence gives the concatenation of the actions
it wants for each action: reading the active sequence while building the new one is
safe, as long as the wanted actions fit the header.  Models of transformations in
other files use this. -/
theorem C61_pass (os : List ((Nat → Nat) × Op)) {p : Lists} (h : Lists.run ⟨[], []⟩ (os.map Prod.snd) = some p) (hn : p.new = [])
    (junk : Nat → Nat) (f : Nat → Act → List Emit) (hf : ∀ k a, p.act[k]? = some a → ∀ e ∈ f k a, ∀ b ∈ e.acts a, b.Fits) :
    ∃ s s', Seq.empty.run os = some s ∧ s.pass junk f = some s' ∧
      s'.walk = some (p.act.zipIdx.flatMap (fun x => (f x.2 x.1).flatMap (Emit.acts x.1)), s'.act.length) := by
  obtain ⟨s, e, hs⟩ := (run_holds os holds_empty).1 p h
  obtain ⟨act, new⟩ := p
  cases hn
  obtain ⟨s1, e1, h1⟩ := loop_holds (junk := junk) (f := f) act.length 0 (Nat.zero_add _) hf hs
  obtain ⟨s2, e2, h2⟩ := (step_holds h1 junk .activate).1 _ rfl
  refine ⟨s, s2, e, ?_, ?_⟩
  · unfold Seq.pass
    rw [hs.count, e1, Option.bind_some]
    exact e2
  · unfold Seq.walk
    have := walkFrom_enc _ [] (fun a ha => (h2.okAct a ha).2.2.2)
    rw [List.nil_append, List.length_nil, Nat.zero_add] at this
    rw [h2.act, h2.count]
    simpa using this

/-- C61: `laik_aseq_copySeq` (src/action.c 1080-1090) keeps all actions, without `Nop`s
and marks. -/
theorem C61_copySeq (os : List ((Nat → Nat) × Op)) {p : Lists} (h : Lists.run ⟨[], []⟩ (os.map Prod.snd) = some p) (hn : p.new = [])
    (junk : Nat → Nat) : ∃ s s', Seq.empty.run os = some s ∧ s.pass junk (fun _ _ => [.pass none]) = some s' ∧
      s'.walk = some ((p.act.filter (fun a => a.type ≠ 2)).map (fun a => { a with mark := false }), s'.act.length) := by
  obtain ⟨s0, e0, hs0⟩ := (run_holds os holds_empty).1 p h
  obtain ⟨s, s', e, e1, e2⟩ := C61_pass os h hn junk (fun _ _ => [.pass none]) (by
    intro k a ha e he b hb
    have hf := hs0.okAct a (List.mem_of_getElem? ha)
    rw [List.mem_singleton.1 he] at hb
    unfold Emit.acts at hb
    simp only at hb
    split at hb
    · cases hb
    · rw [List.mem_singleton.1 hb]
      exact hf)
  refine ⟨s, s', e, e1, ?_⟩
  rw [e2]
  congr 2
  have : ∀ (l : List Act) (n : Nat), (l.zipIdx n).flatMap (fun x => [Emit.pass none].flatMap (Emit.acts x.1)) =
      (l.filter (fun a => a.type ≠ 2)).map (fun a => { a with mark := false }) := by
    intro l
    induction l with
    | nil => intro n; rfl
    | cons a l ih =>
      intro n
      rw [List.zipIdx_cons, List.flatMap_cons, ih]
      by_cases ht : a.type = 2 <;> simp [Emit.acts, ht]
  exact this p.act 0

/-! ### A case meeting the hypotheses -/

/-- Two actions are added and made active, the first is marked, both are copied with
round 3 for the first, a third one is added. -/
def exOps : List ((Nat → Nat) × Op) :=
  [(fun _ => 7, .add 9 0 0 [1, 2, 3]), (fun _ => 7, .add 10 4 1 []), (fun _ => 7, .activate), (fun _ => 7, .modify 0 9 true [5, 6, 7]),
    (fun i => i, .copy 1 none), (fun i => i, .copy 0 (some 3)), (fun _ => 0, .add 11 254 127 [8]), (fun _ => 0, .activate)]

def exLists : Lists := ⟨[⟨10, 4, 1, false, []⟩, ⟨9, 3, 0, false, [5, 6, 7]⟩, ⟨11, 254, 127, false, [8]⟩], []⟩

example : ∃ s, Seq.empty.run exOps = some s ∧ s.walk = some (exLists.act, s.act.length) ∧ s.act.length = 16 ∧ s.rounds = 255 := by
  obtain ⟨s, h, h1, _⟩ := C61_refines exOps (p := exLists) (by decide)
  refine ⟨s, h, h1, ?_, ?_⟩
  · have : (Seq.empty.run exOps).map (fun s => s.act.length) = some 16 := by decide +kernel
    rw [h] at this
    exact Option.some.inj this
  · have : (Seq.empty.run exOps).map (fun s => s.rounds) = some 255 := by decide +kernel
    rw [h] at this
    exact Option.some.inj this

/-- Rounds of 255 and actions of 256 bytes are refused. -/
example : Seq.empty.run [(fun _ => 0, .add 9 255 0 [])] = none ∧ Seq.empty.run [(fun _ => 0, .add 9 0 0 (List.replicate 252 0))] = none :=
  ⟨C61_refuses _ (by decide), C61_refuses _ (by decide +kernel)⟩

/-- A transformation doubling actions. -/
example : ∃ s s', Seq.empty.run exOps = some s ∧ s.pass (fun _ => 1) (fun _ a => [.pass none, .new 20 a.round 0 [a.type]]) = some s' ∧
    s'.walk = some ([⟨10, 4, 1, false, []⟩, ⟨20, 4, 0, false, [10]⟩, ⟨9, 3, 0, false, [5, 6, 7]⟩, ⟨20, 3, 0, false, [9]⟩,
      ⟨11, 254, 127, false, [8]⟩, ⟨20, 254, 0, false, [11]⟩], s'.act.length) :=
  C61_pass exOps (p := exLists) (by decide) rfl _ _ (by
    intro k a ha e he b hb
    have hm : a ∈ exLists.act := List.mem_of_getElem? ha
    have : ∀ a ∈ exLists.act, ∀ e ∈ [Emit.pass none, .new 20 a.round 0 [a.type]], ∀ b ∈ e.acts a, b.Fits := by decide
    exact this a hm e he b hb)

end Laik.As
