import Verif.Spec.DataExec
import Verif.Model.Deadlock
/-!
# Executions with data follow the expected message contents

If every process, when it gets the expected contents in all messages, sends the
expected contents, and the messages match, then every execution is as expected.
-/

namespace Laik.DE

variable {A V : Type} [DecidableEq A]

/-- Action with expected contents of the message (by index), and a number used
as round for the order of messages. -/
abbrev GA (A V : Type) := DAct A × (Int → V) × Nat

omit [DecidableEq A] in
/-- Kind of the action for the semantics without data. -/
def DAct.kind : DAct A → AKind
  | .copy _ _ _ _ => .other
  | .send q _ _ _ => .send q
  | .recv q _ _ _ _ => .recv q

omit [DecidableEq A] in
def DAct.lo : DAct A → Int
  | .copy x _ _ _ => x
  | .send _ x _ _ => x
  | .recv _ x _ _ _ => x

omit [DecidableEq A] in
def DAct.hi : DAct A → Int
  | .copy _ y _ _ => y
  | .send _ _ y _ => y
  | .recv _ _ y _ _ => y

omit [DecidableEq A] in
/-- Expected message. -/
def GA.msg (g : GA A V) : List V := (idxs g.1.lo g.1.hi).map g.2.1

omit [DecidableEq A] in
def GA.act (g : GA A V) : Act (List V) := ⟨g.2.2, g.1.kind, GA.msg g⟩

/-- Memory after an action which gets the expected message. -/
def gstep (op : V → V → V) (m : A → V) (g : GA A V) : A → V :=
  match g.1 with
  | .copy x y s d => doCopy m x y s d
  | .send _ _ _ _ => m
  | .recv _ x y d red => stored op red d m x y (GA.msg g)

/-- Messages sent have the expected contents. -/
def Walk (op : V → V → V) : (A → V) → List (GA A V) → Prop
  | _, [] => True
  | m, g :: t => (match g.1 with
      | .send _ x y s => packed m x y s = GA.msg g
      | _ => True) ∧ Walk op (gstep op m g) t

def Final (op : V → V → V) (m : A → V) (l : List (GA A V)) : A → V := l.foldl (gstep op) m

theorem idxs_length (x y : Int) : (idxs x y).length = (y - x).toNat := by simp [idxs]

/-- The state of an execution belongs to a state of the semantics without data. -/
structure DInv (op : V → V → V) (G : Nat → List (GA A V)) (m0 : Nat → A → V) (st : DState A V)
    (u : Nat → List (GA A V)) (k : Nat) : Prop where
  rem : ∀ p, st.rem p = (u p).map (·.1)
  run : ESteps k (EState.start (fun p => ((G p).map GA.act).map Act.er))
    ⟨fun p => ((u p).map GA.act).map Act.er, st.chan⟩
  walk : ∀ p, Walk op (st.mem p) (u p)
  fin : ∀ p, Final op (st.mem p) (u p) = Final op (m0 p) (G p)

omit [DecidableEq A] in
theorem setRem_map (u : Nat → List (GA A V)) (p : Nat) (t : List (GA A V)) :
    setRem (fun p => ((u p).map GA.act).map Act.er) p ((t.map GA.act).map Act.er) =
      fun q => ((setP u p t q).map GA.act).map Act.er := by
  funext q
  unfold setRem setP
  split <;> rfl

omit [DecidableEq A] in
theorem setChan_eq (f : Nat → Nat → List (List V)) (p q : Nat) (v : List (List V)) : setChan f p q v = setC f p q v := rfl

omit [DecidableEq A] in
theorem setP_rem {u : Nat → List (GA A V)} {rem : Nat → List (DAct A)} (h : ∀ p, rem p = (u p).map (·.1)) (p : Nat)
    (t : List (GA A V)) {t' : List (DAct A)} (ht : t' = t.map (·.1)) : ∀ q, setP rem p t' q = (setP u p t q).map (·.1) := by
  intro q
  unfold setP
  split
  · exact ht
  · exact h q

omit [DecidableEq A] in
theorem head_of {u : List (GA A V)} {a : DAct A} {t : List (DAct A)} (h : a :: t = u.map (·.1)) :
    ∃ g t', u = g :: t' ∧ g.1 = a ∧ t = t'.map (·.1) := by
  cases u with
  | nil => cases h
  | cons g t' =>
    simp only [List.map_cons, List.cons.injEq] at h
    exact ⟨g, t', rfl, h.1.symm, h.2⟩

variable {op : V → V → V} {G : Nat → List (GA A V)} {m0 : Nat → A → V} {g : Nat → Nat → Nat}

theorem DInv.start (hw : ∀ p, Walk op (m0 p) (G p)) :
    DInv op G m0 (DState.start (fun p => (G p).map (·.1)) m0) G 0 where
  rem _ := rfl
  run := ESteps.nil _
  walk := hw
  fin _ := rfl

theorem Walk.upd {m : Nat → A → V} {u : Nat → List (GA A V)} (h : ∀ p, Walk op (m p) (u p)) (p : Nat) {mp : A → V}
    {t : List (GA A V)} (hp : Walk op mp t) : ∀ q, Walk op (setP m p mp q) (setP u p t q) := by
  intro q
  unfold setP
  split
  · exact hp
  · exact h q

theorem Final.upd {m : Nat → A → V} {u : Nat → List (GA A V)} {X : Nat → A → V} (h : ∀ p, Final op (m p) (u p) = X p)
    (p : Nat) {mp : A → V} {t : List (GA A V)} (hp : Final op mp t = X p) :
    ∀ q, Final op (setP m p mp q) (setP u p t q) = X q := by
  intro q
  unfold setP
  split
  · rename_i e; rw [hp, e]
  · exact h q

omit [DecidableEq A] in
theorem setP_self {β : Type} (f : Nat → β) (p : Nat) : setP f p (f p) = f := by
  funext q
  unfold setP
  split
  · rename_i e; rw [e]
  · rfl

theorem Walk.tail {m : A → V} {x : GA A V} {t : List (GA A V)} (h : Walk op m (x :: t)) : Walk op (gstep op m x) t := h.2

theorem msg_recv {x : GA A V} {q : Nat} {a b : Int} {d : Int → A} {red : Bool} (h : x.1 = .recv q a b d red) :
    GA.msg x = (idxs a b).map x.2.1 := by
  unfold GA.msg
  rw [h]; rfl

theorem DInv.step (ok : ExecOK (fun p => (G p).map GA.act) g) {st st' : DState A V} {u : Nat → List (GA A V)} {k : Nat}
    (inv : DInv op G m0 st u k) (hs : DStep op st st') : ∃ u' k', DInv op G m0 st' u' k' := by
  obtain ⟨tt, ch, ei⟩ := EInv.reach ok inv.run
  cases hs with
  | sync _ h =>
    cases h with
    | copy p x y s d t h =>
      rw [inv.rem p] at h
      obtain ⟨a, t', e, ha, ht⟩ := head_of h.symm
      refine ⟨setP u p t', k + 1, ?_, ?_, ?_, ?_⟩
      · exact setP_rem inv.rem p t' ht
      · refine ESteps.snoc inv.run (.sync _ _ ?_)
        have := RStep.loc ⟨fun p => ((u p).map GA.act).map Act.er, st.chan⟩ p (GA.msg a) ((t'.map GA.act).map Act.er)
          (by simp only [e, List.map_cons, Act.er, GA.act, ha, DAct.kind])
        rw [setRem_map] at this
        exact this
      · refine Walk.upd inv.walk p ?_
        have := inv.walk p
        rw [e] at this
        have := this.tail
        unfold gstep at this
        rw [ha] at this
        exact this
      · refine Final.upd inv.fin p ?_
        rw [← inv.fin p, e]
        unfold Final
        rw [List.foldl_cons]
        congr 1
        unfold gstep
        rw [ha]
    | recv p q x y d red t vs c h hc hl =>
      rw [inv.rem q] at h
      obtain ⟨a, t', e, ha, ht⟩ := head_of h.symm
      have hq : (fun p => ((u p).map GA.act).map Act.er) q = (.recv p, GA.msg a) :: (t'.map GA.act).map Act.er := by
        simp only [e, List.map_cons, Act.er, GA.act, ha, DAct.kind]
      have hv : vs = GA.msg a := (ei.step_recv (p := p) (q := q) hq hc).1
      refine ⟨setP u q t', k + 1, setP_rem inv.rem q t' ht, ?_, ?_, ?_⟩
      · refine ESteps.snoc inv.run (.sync _ _ ?_)
        have := RStep.recv ⟨fun p => ((u p).map GA.act).map Act.er, st.chan⟩ p q vs (GA.msg a) _ c hq hc
        rw [setRem_map] at this
        exact this
      · refine Walk.upd inv.walk q ?_
        have := inv.walk q
        rw [e] at this
        have := this.tail
        unfold gstep at this
        rw [ha] at this
        rw [hv]
        exact this
      · refine Final.upd inv.fin q ?_
        rw [← inv.fin q, e]
        unfold Final
        rw [List.foldl_cons]
        congr 1
        unfold gstep
        rw [ha, hv]
    | meet p q x y x' y' s d red t t2 hne hp hq hc hl =>
      rw [inv.rem p] at hp
      rw [inv.rem q] at hq
      obtain ⟨a, t', e, ha, ht⟩ := head_of hp.symm
      obtain ⟨b, t2', e2, hb, ht2⟩ := head_of hq.symm
      have hp' : (fun p => ((u p).map GA.act).map Act.er) p = (.send q, GA.msg a) :: (t'.map GA.act).map Act.er := by
        simp only [e, List.map_cons, Act.er, GA.act, ha, DAct.kind]
      have hq' : (fun p => ((u p).map GA.act).map Act.er) q = (.recv p, GA.msg b) :: (t2'.map GA.act).map Act.er := by
        simp only [e2, List.map_cons, Act.er, GA.act, hb, DAct.kind]
      have hv : GA.msg a = GA.msg b := (ei.step_meet (p := p) (q := q) hne hp' hq' hc).1
      have hw := inv.walk p
      rw [e] at hw
      have hpk : packed (st.mem p) x' y' s = GA.msg a := by
        have := hw.1
        rw [ha] at this
        exact this
      have hwt : Walk op (st.mem p) t' := by
        have := hw.tail
        unfold gstep at this
        rw [ha] at this
        exact this
      have hft : Final op (st.mem p) t' = Final op (m0 p) (G p) := by
        rw [← inv.fin p, e]
        unfold Final
        rw [List.foldl_cons]
        congr 1
        unfold gstep
        rw [ha]
      have w1 : ∀ r, Walk op (st.mem r) (setP u p t' r) := by
        have := Walk.upd inv.walk p hwt
        rwa [setP_self] at this
      have f1 : ∀ r, Final op (st.mem r) (setP u p t' r) = Final op (m0 r) (G r) := by
        have := Final.upd inv.fin p hft
        rwa [setP_self] at this
      refine ⟨setP (setP u p t') q t2', k + 1, setP_rem (setP_rem inv.rem p t' ht) q t2' ht2, ?_, ?_, ?_⟩
      · refine ESteps.snoc inv.run (.sync _ _ ?_)
        have := RStep.meet ⟨fun p => ((u p).map GA.act).map Act.er, st.chan⟩ p q (GA.msg a) (GA.msg b) _ _ hne hp' hq' hc
        simp only [setRem_map] at this
        exact this
      · refine Walk.upd w1 q ?_
        have := inv.walk q
        rw [e2] at this
        have := this.tail
        unfold gstep at this
        rw [hb] at this
        rw [hpk, hv]
        exact this
      · refine Final.upd f1 q ?_
        rw [← inv.fin q, e2]
        unfold Final
        rw [List.foldl_cons]
        congr 1
        unfold gstep
        rw [hb, hpk, hv]
  | buf p q x y s t h =>
    rw [inv.rem p] at h
    obtain ⟨a, t', e, ha, ht⟩ := head_of h.symm
    have hp' : (fun p => ((u p).map GA.act).map Act.er) p = (.send q, GA.msg a) :: (t'.map GA.act).map Act.er := by
      simp only [e, List.map_cons, Act.er, GA.act, ha, DAct.kind]
    have hw := inv.walk p
    rw [e] at hw
    have hpk : packed (st.mem p) x y s = GA.msg a := by
      have := hw.1
      rw [ha] at this
      exact this
    refine ⟨setP u p t', k + 1, setP_rem inv.rem p t' ht, ?_, ?_, ?_⟩
    · refine ESteps.snoc inv.run ?_
      have := EStep.buf ⟨fun p => ((u p).map GA.act).map Act.er, st.chan⟩ p q (GA.msg a) _ hp'
      rw [setRem_map] at this
      rw [hpk]
      exact this
    · have hwt : Walk op (st.mem p) t' := by
        have := hw.tail
        unfold gstep at this
        rw [ha] at this
        exact this
      have := Walk.upd inv.walk p hwt
      rwa [setP_self] at this
    · have hft : Final op (st.mem p) t' = Final op (m0 p) (G p) := by
        rw [← inv.fin p, e]
        unfold Final
        rw [List.foldl_cons]
        congr 1
        unfold gstep
        rw [ha]
      have := Final.upd inv.fin p hft
      rwa [setP_self] at this

theorem DInv.reach (ok : ExecOK (fun p => (G p).map GA.act) g) (hw : ∀ p, Walk op (m0 p) (G p)) {k : Nat} {st : DState A V}
    (h : DSteps op k (DState.start (fun p => (G p).map (·.1)) m0) st) : ∃ u k', DInv op G m0 st u k' := by
  generalize hs : DState.start (fun p => (G p).map (·.1)) m0 = s0 at h
  induction h with
  | nil => subst hs; exact ⟨_, _, DInv.start hw⟩
  | snoc _ hst ih =>
    obtain ⟨u, k', i⟩ := ih hs
    exact i.step ok hst

theorem act_inv {u : List (GA A V)} {k : AKind} {x : List V} {t : Prog (List V)}
    (h : (u.map GA.act).map Act.er = (k, x) :: t) : ∃ a t', u = a :: t' ∧ a.1.kind = k ∧ GA.msg a = x := by
  cases u with
  | nil => cases h
  | cons a t' =>
    simp only [List.map_cons, List.cons.injEq, Act.er, GA.act, Prod.mk.injEq] at h
    exact ⟨a, t', rfl, h.1.1, h.1.2⟩

/-- Not stuck. -/
theorem DInv.progress (ok : ExecOK (fun p => (G p).map GA.act) g) {st : DState A V} {u : Nat → List (GA A V)} {k : Nat}
    (inv : DInv op G m0 st u k) : DDone st ∨ ∃ st', DRStep op st st' := by
  obtain ⟨tt, ch, ei⟩ := EInv.reach ok inv.run
  rcases ei.progress ok with h | ⟨s', h⟩
  · left
    refine ⟨fun p => ?_, h.2⟩
    have := h.1 p
    simp only [List.map_eq_nil_iff] at this
    rw [inv.rem, this]; rfl
  · right
    cases h with
    | loc p x t h =>
      obtain ⟨a, t', e, hk, _⟩ := act_inv h
      have hr := inv.rem p
      rw [e, List.map_cons] at hr
      cases ha : a.1 with
      | copy x y s d => rw [ha] at hr; exact ⟨_, .copy st p x y s d _ hr⟩
      | send q x y s => rw [ha] at hk; cases hk
      | recv q x y d red => rw [ha] at hk; cases hk
    | recv p q x y t c hq hc =>
      obtain ⟨a, t', e, hk, hm⟩ := act_inv hq
      have hv := (ei.step_recv (p := p) (q := q) hq hc).1
      have hr := inv.rem q
      rw [e, List.map_cons] at hr
      cases ha : a.1 with
      | copy x y s d => rw [ha] at hk; cases hk
      | send q x y s => rw [ha] at hk; cases hk
      | recv q' x' y' d red =>
        rw [ha] at hk; cases hk
        rw [ha] at hr
        refine ⟨_, .recv st p q x' y' d red _ x c hr hc ?_⟩
        rw [hv, ← hm, msg_recv ha, List.length_map, idxs_length]
    | meet p q x y t t' hne hp hq hc =>
      obtain ⟨a, t1, e, hk, hm⟩ := act_inv hp
      obtain ⟨b, t2, e2, hk2, hm2⟩ := act_inv hq
      have hv := (ei.step_meet (p := p) (q := q) hne hp hq hc).1
      have hr := inv.rem p
      rw [e, List.map_cons] at hr
      have hr2 := inv.rem q
      rw [e2, List.map_cons] at hr2
      have hw := inv.walk p
      rw [e] at hw
      cases ha : a.1 with
      | copy x y s d => rw [ha] at hk; cases hk
      | recv q x y d red => rw [ha] at hk; cases hk
      | send q1 x1 y1 s =>
        rw [ha] at hk; cases hk
        rw [ha] at hr
        cases hb : b.1 with
        | copy x y s d => rw [hb] at hk2; cases hk2
        | send q x y s => rw [hb] at hk2; cases hk2
        | recv q2 x2 y2 d red =>
          rw [hb] at hk2; cases hk2
          rw [hb] at hr2
          refine ⟨_, .meet st p q x2 y2 x1 y1 s d red _ _ hne hr hr2 hc ?_⟩
          have hpk : packed (st.mem p) x1 y1 s = GA.msg a := by
            have := hw.1
            rw [ha] at this
            exact this
          rw [hpk, hm, hv, ← hm2, msg_recv hb, List.length_map, idxs_length]
    | coll c hex hall =>
      obtain ⟨p, x, t, h⟩ := hex
      obtain ⟨a, t', e, hk, _⟩ := act_inv h
      cases ha : a.1 <;> rw [ha] at hk <;> cases hk

/-- Memory at the end. -/
theorem DInv.done {st : DState A V} {u : Nat → List (GA A V)} {k : Nat}
    (inv : DInv op G m0 st u k) (h : ∀ p, st.rem p = []) (p : Nat) : st.mem p = Final op (m0 p) (G p) := by
  have := inv.rem p
  rw [h p] at this
  have hu : u p = [] := by simpa using this.symm
  rw [← inv.fin p, hu]
  rfl

end Laik.DE
