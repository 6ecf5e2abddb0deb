import Verif.Spec.NetExec
import Verif.Model.Deadlock
/-!
# Executions follow the expected message contents

If every process, when it gets the expected contents in all messages, sends the
expected contents, and the messages match, then every execution is as expected.
-/

namespace Laik.NX

variable {M V : Type}

/-- Action with expected contents sent, contributed or received (`msg`), and a
number used as round for the order of messages. -/
structure GX (M V : Type) where
  act : XAct M V
  msg : List V
  rnd : Nat

/-- Kind of the action for the semantics without data. -/
def XAct.kind : XAct M V → AKind
  | .loc _ => .other
  | .send q _ => .send q
  | .recv q _ _ => .recv q
  | .coll c _ _ => .coll c

def GX.toAct (g : GX M V) : Act (List V) := ⟨g.rnd, g.act.kind, g.msg⟩

/-- Number of a collective. -/
def GX.collId (g : GX M V) : Option Nat :=
  match g.act with
  | .coll c _ _ => some c
  | _ => none

/-- Memory after an action which gets the expected message.  `res c` is the
expected result of a collective. -/
def gst (res : Nat → List V) (m : M) (g : GX M V) : M :=
  match g.act with
  | .loc f => f m
  | .send _ _ => m
  | .recv _ _ inn => inn m g.msg
  | .coll c _ inn => inn m (res c)

/-- What is expected from an action: contents sent, length of messages. -/
def expects (m : M) (g : GX M V) : Prop :=
  match g.act with
  | .loc _ => True
  | .send _ out => out m = g.msg
  | .recv _ n _ => g.msg.length = n
  | .coll _ out _ => out m = g.msg

def XWalk (res : Nat → List V) : M → List (GX M V) → Prop
  | _, [] => True
  | m, g :: t => expects m g ∧ XWalk res (gst res m g) t

def XFinal (res : Nat → List V) (m : M) (l : List (GX M V)) : M := l.foldl (gst res) m

/-- Assumptions on the collectives: all processes do the same in the same order,
and `CT c p` is the contribution of `p` to `c`. -/
structure CollOK (N : Nat) (cf : Nat → (Nat → List V) → Nat → List V) (G : Nat → List (GX M V)) (CT : Nat → Nat → List V)
    (res : Nat → Nat → List V) : Prop where
  same : ∀ p < N, ∀ q < N, (G p).filterMap GX.collId = (G q).filterMap GX.collId
  out : ∀ p, N ≤ p → G p = []
  msg : ∀ p < N, ∀ g ∈ G p, ∀ c, g.collId = some c → g.msg = CT c p
  res : ∀ p < N, ∀ c, ∀ w : Nat → List V, (∀ q < N, w q = CT c q) → cf c w p = res p c

/-- The state of an execution belongs to a state of the semantics without data. -/
structure XInv (N : Nat) (res : Nat → Nat → List V) (G : Nat → List (GX M V)) (m0 : Nat → M) (st : XState M V)
    (u : Nat → List (GX M V)) (k : Nat) : Prop where
  rem : ∀ p, st.rem p = (u p).map (·.act)
  run : ESteps k (EState.start (fun p => ((G p).map GX.toAct).map Act.er))
    ⟨fun p => ((u p).map GX.toAct).map Act.er, st.chan⟩
  walk : ∀ p, XWalk (res p) (st.mem p) (u p)
  fin : ∀ p, XFinal (res p) (st.mem p) (u p) = XFinal (res p) (m0 p) (G p)
  suf : ∀ p, u p <:+ G p
  same : ∀ p < N, ∀ q < N, (u p).filterMap GX.collId = (u q).filterMap GX.collId

theorem upP_same {β : Type} (f : Nat → β) (p : Nat) (v : β) : upP f p v p = v := by simp [upP]
theorem upP_ne {β : Type} (f : Nat → β) {p q : Nat} (v : β) (h : q ≠ p) : upP f p v q = f q := by simp [upP, h]

theorem upP_self {β : Type} (f : Nat → β) (p : Nat) : upP f p (f p) = f := by
  funext q
  unfold upP
  split
  · rename_i e; rw [e]
  · rfl

theorem setRem_map (u : Nat → List (GX M V)) (p : Nat) (t : List (GX M V)) :
    setRem (fun p => ((u p).map GX.toAct).map Act.er) p ((t.map GX.toAct).map Act.er) =
      fun q => ((upP u p t q).map GX.toAct).map Act.er := by
  funext q
  unfold setRem upP
  split <;> rfl

theorem upP_rem {u : Nat → List (GX M V)} {rem : Nat → List (XAct M V)} (h : ∀ p, rem p = (u p).map (·.act)) (p : Nat)
    (t : List (GX M V)) {t' : List (XAct M V)} (ht : t' = t.map (·.act)) : ∀ q, upP rem p t' q = (upP u p t q).map (·.act) := by
  intro q
  unfold upP
  split
  · exact ht
  · exact h q

theorem head_of {u : List (GX M V)} {a : XAct M V} {t : List (XAct M V)} (h : a :: t = u.map (·.act)) :
    ∃ g t', u = g :: t' ∧ g.act = a ∧ t = t'.map (·.act) := by
  cases u with
  | nil => cases h
  | cons g t' =>
    simp only [List.map_cons, List.cons.injEq] at h
    exact ⟨g, t', rfl, h.1.symm, h.2⟩

variable {N : Nat} {cf : Nat → (Nat → List V) → Nat → List V} {G : Nat → List (GX M V)} {m0 : Nat → M} {g : Nat → Nat → Nat}
  {CT : Nat → Nat → List V} {res : Nat → Nat → List V}

theorem XInv.start (hc : CollOK N cf G CT res) (hw : ∀ p, XWalk (res p) (m0 p) (G p)) :
    XInv N res G m0 (XState.start (fun p => (G p).map (·.act)) m0) G 0 where
  rem _ := rfl
  run := ESteps.nil _
  walk := hw
  fin _ := rfl
  suf _ := List.suffix_refl _
  same := hc.same

theorem upd_all {β : Type} {m : Nat → M} {u : Nat → β} {P : Nat → M → β → Prop} (h : ∀ p, P p (m p) (u p)) (p : Nat) {mp : M} {t : β}
    (hp : P p mp t) : ∀ q, P q (upP m p mp q) (upP u p t q) := by
  intro q
  unfold upP
  split
  · rename_i e; rw [e]; exact hp
  · exact h q

theorem suf_upd {u : Nat → List (GX M V)} (h : ∀ p, u p <:+ G p) {p : Nat} {a : GX M V} {t : List (GX M V)} (e : u p = a :: t) :
    ∀ q, upP u p t q <:+ G q := by
  intro q
  by_cases c : q = p
  · subst c; rw [upP_same]; have := h q; rw [e] at this; exact suf_tail this
  · rw [upP_ne _ _ c]; exact h q

theorem collId_other {a : GX M V} (h : ∀ c, a.act.kind ≠ .coll c) : a.collId = none := by
  unfold GX.collId
  cases e : a.act with
  | coll c o i => exact absurd (by rw [e]; rfl) (h c)
  | loc => rfl
  | send => rfl
  | recv => rfl

theorem same_upd {u : Nat → List (GX M V)} (h : ∀ p < N, ∀ q < N, (u p).filterMap GX.collId = (u q).filterMap GX.collId) {p : Nat}
    {a : GX M V} {t : List (GX M V)} (e : u p = a :: t) (ha : a.collId = none) :
    ∀ i < N, ∀ j < N, (upP u p t i).filterMap GX.collId = (upP u p t j).filterMap GX.collId := by
  have : ∀ i, (upP u p t i).filterMap GX.collId = (u i).filterMap GX.collId := by
    intro i
    by_cases c : i = p
    · subst c; rw [upP_same, e, List.filterMap_cons_none ha]
    · rw [upP_ne _ _ c]
  intro i hi j hj
  rw [this, this]
  exact h i hi j hj

theorem XFinal_cons (r : Nat → List V) (m : M) (a : GX M V) (t : List (GX M V)) : XFinal r m (a :: t) = XFinal r (gst r m a) t := rfl

/-- One process does an action which is not a collective; its memory gets `mp`. -/
theorem XInv.one {st : XState M V} {u : Nat → List (GX M V)} {k : Nat} (inv : XInv N res G m0 st u k) {p : Nat} {a : GX M V}
    {t : List (GX M V)} (e : u p = a :: t) {mp : M} (hm : mp = gst (res p) (st.mem p) a) :
    (∀ q, XWalk (res q) (upP st.mem p mp q) (upP u p t q)) ∧
    ∀ q, XFinal (res q) (upP st.mem p mp q) (upP u p t q) = XFinal (res q) (m0 q) (G q) := by
  have hw := inv.walk p
  rw [e] at hw
  have hf := inv.fin p
  rw [e, XFinal_cons] at hf
  subst hm
  exact ⟨upd_all (P := fun q m l => XWalk (res q) m l) inv.walk p hw.2,
    upd_all (P := fun q m l => XFinal (res q) m l = XFinal (res q) (m0 q) (G q)) inv.fin p hf⟩

theorem XInv.step (ok : ExecOK (fun p => (G p).map GX.toAct) g) (hc : CollOK N cf G CT res) {st st' : XState M V}
    {u : Nat → List (GX M V)} {k : Nat} (inv : XInv N res G m0 st u k) (hs : XStep N cf st st') :
    ∃ u' k', XInv N res G m0 st' u' k' := by
  obtain ⟨tt, ch, ei⟩ := EInv.reach ok inv.run
  cases hs with
  | sync _ h =>
    cases h with
    | loc p f t h =>
      rw [inv.rem p] at h
      obtain ⟨a, t', e, ha, ht⟩ := head_of h.symm
      obtain ⟨hw, hf⟩ := inv.one e (mp := f (st.mem p)) (by unfold gst; rw [ha])
      refine ⟨upP u p t', k + 1, upP_rem inv.rem p t' ht, ?_, hw, hf, suf_upd inv.suf e,
        same_upd inv.same e (collId_other (by rw [ha]; intro c hh; cases hh))⟩
      refine ESteps.snoc inv.run (.sync _ _ ?_)
      have := RStep.loc ⟨fun p => ((u p).map GX.toAct).map Act.er, st.chan⟩ p a.msg ((t'.map GX.toAct).map Act.er)
        (by simp only [e, List.map_cons, Act.er, GX.toAct, ha, XAct.kind])
      rw [setRem_map] at this
      exact this
    | recv p q n inn t vs c h hch hl =>
      rw [inv.rem q] at h
      obtain ⟨a, t', e, ha, ht⟩ := head_of h.symm
      have hq : (fun p => ((u p).map GX.toAct).map Act.er) q = (.recv p, a.msg) :: (t'.map GX.toAct).map Act.er := by
        simp only [e, List.map_cons, Act.er, GX.toAct, ha, XAct.kind]
      have hv : vs = a.msg := (ei.step_recv (p := p) (q := q) hq hch).1
      obtain ⟨hw, hf⟩ := inv.one e (mp := inn (st.mem q) vs) (by unfold gst; rw [ha, hv])
      refine ⟨upP u q t', k + 1, upP_rem inv.rem q t' ht, ?_, hw, hf, suf_upd inv.suf e,
        same_upd inv.same e (collId_other (by rw [ha]; intro c hh; cases hh))⟩
      refine ESteps.snoc inv.run (.sync _ _ ?_)
      have := RStep.recv ⟨fun p => ((u p).map GX.toAct).map Act.er, st.chan⟩ p q vs a.msg _ c hq hch
      rw [setRem_map] at this
      exact this
    | meet p q n out inn t t2 hne hp hq hch hl =>
      rw [inv.rem p] at hp
      rw [inv.rem q] at hq
      obtain ⟨a, t', e, ha, ht⟩ := head_of hp.symm
      obtain ⟨b, t2', e2, hb, ht2⟩ := head_of hq.symm
      have hp' : (fun p => ((u p).map GX.toAct).map Act.er) p = (.send q, a.msg) :: (t'.map GX.toAct).map Act.er := by
        simp only [e, List.map_cons, Act.er, GX.toAct, ha, XAct.kind]
      have hq' : (fun p => ((u p).map GX.toAct).map Act.er) q = (.recv p, b.msg) :: (t2'.map GX.toAct).map Act.er := by
        simp only [e2, List.map_cons, Act.er, GX.toAct, hb, XAct.kind]
      have hv : a.msg = b.msg := (ei.step_meet (p := p) (q := q) hne hp' hq' hch).1
      have hpk : out (st.mem p) = a.msg := by
        have := inv.walk p
        rw [e] at this
        have := this.1
        unfold expects at this
        rw [ha] at this
        exact this
      -- first the send
      obtain ⟨hw1, hf1⟩ := inv.one e (mp := st.mem p) (by unfold gst; rw [ha])
      rw [upP_self] at hw1 hf1
      have e2' : upP u p t' q = b :: t2' := by rw [upP_ne _ _ (Ne.symm hne)]; exact e2
      have hwq := hw1 q
      rw [e2'] at hwq
      have hfq := hf1 q
      rw [e2', XFinal_cons] at hfq
      have hg : inn (st.mem q) (out (st.mem p)) = gst (res q) (st.mem q) b := by
        unfold gst; rw [hb, hpk, hv]
      refine ⟨upP (upP u p t') q t2', k + 1, upP_rem (upP_rem inv.rem p t' ht) q t2' ht2, ?_, ?_, ?_,
        suf_upd (suf_upd inv.suf e) e2', same_upd (same_upd inv.same e (collId_other (by rw [ha]; intro c hh; cases hh))) e2'
          (collId_other (by rw [hb]; intro c hh; cases hh))⟩
      · refine ESteps.snoc inv.run (.sync _ _ ?_)
        have := RStep.meet ⟨fun p => ((u p).map GX.toAct).map Act.er, st.chan⟩ p q a.msg b.msg _ _ hne hp' hq' hch
        simp only [setRem_map] at this
        exact this
      · rw [hg]
        exact upd_all (P := fun r m l => XWalk (res r) m l) hw1 q hwq.2
      · rw [hg]
        exact upd_all (P := fun r m l => XFinal (res r) m l = XFinal (res r) (m0 r) (G r)) hf1 q hfq
    | coll c out inn t hN h =>
      have hall : ∀ p, p < N → ∃ a t', u p = a :: t' ∧ a.act = .coll c (out p) (inn p) ∧ t p = t'.map (·.act) := by
        intro p hp
        have := h p hp
        rw [inv.rem p] at this
        obtain ⟨a, t', e, ha, ht⟩ := head_of this.symm
        exact ⟨a, t', e, ha, ht⟩
      have hnil : ∀ p, N ≤ p → u p = [] := by
        intro p hp
        have := inv.suf p
        rw [hc.out p hp] at this
        exact List.suffix_nil.1 this
      have hct : ∀ q < N, out q (st.mem q) = CT c q := by
        intro q hq
        obtain ⟨a, t', e, ha, _⟩ := hall q hq
        have hw := inv.walk q
        rw [e] at hw
        have h1 := hw.1
        unfold expects at h1
        rw [ha] at h1
        have hmem : a ∈ G q := (inv.suf q).subset (by rw [e]; exact List.mem_cons_self)
        rw [show out q (st.mem q) = a.msg from h1]
        exact hc.msg q hq a hmem c (by unfold GX.collId; rw [ha])
      refine ⟨fun p => if p < N then (u p).tail else u p, k + 1, ?_, ?_, ?_, ?_, ?_, ?_⟩
      · intro p
        by_cases cc : p < N
        · obtain ⟨a, t', e, ha, ht⟩ := hall p cc
          simp only [if_pos cc, e, List.tail_cons, ht]
        · simp only [if_neg cc]; exact inv.rem p
      · refine ESteps.snoc inv.run (.sync _ _ ?_)
        have h1 := RStep.coll ⟨fun p => ((u p).map GX.toAct).map Act.er, st.chan⟩ c
          (by
            obtain ⟨a, t', e, ha, _⟩ := hall 0 hN
            exact ⟨0, a.msg, (t'.map GX.toAct).map Act.er, by simp only [e, List.map_cons, Act.er, GX.toAct, ha, XAct.kind]⟩)
          (by
            intro p x hx
            by_cases cc : p < N
            · obtain ⟨a, t', e, ha, _⟩ := hall p cc
              exact ⟨a.msg, (t'.map GX.toAct).map Act.er, by simp only [e, List.map_cons, Act.er, GX.toAct, ha, XAct.kind]⟩
            · simp only [hnil p (by omega), List.map_nil] at hx
              cases hx)
        have e1 : popColl (fun p => ((u p).map GX.toAct).map Act.er) c =
            fun p => (((if p < N then (u p).tail else u p)).map GX.toAct).map Act.er := by
          funext p
          unfold popColl
          by_cases cc : p < N
          · obtain ⟨a, t', e, ha, _⟩ := hall p cc
            simp only [if_pos cc, e, List.map_cons, List.head?_cons, Option.map_some, List.tail_cons]
            rw [if_pos (by simp only [Act.er, GX.toAct, ha, XAct.kind])]
          · simp only [if_neg cc, hnil p (by omega), List.map_nil, List.head?_nil, Option.map_none]
            rw [if_neg (by simp)]
        rw [← e1]
        exact h1
      · intro p
        by_cases cc : p < N
        · obtain ⟨a, t', e, ha, _⟩ := hall p cc
          have hw := inv.walk p
          rw [e] at hw
          have h2 := hw.2
          unfold gst at h2
          rw [ha] at h2
          simp only [if_pos cc, e, List.tail_cons]
          rw [hc.res p cc c _ hct]
          exact h2
        · simp only [if_neg cc]; exact inv.walk p
      · intro p
        by_cases cc : p < N
        · obtain ⟨a, t', e, ha, _⟩ := hall p cc
          have hf := inv.fin p
          rw [e, XFinal_cons] at hf
          unfold gst at hf
          rw [ha] at hf
          simp only [if_pos cc, e, List.tail_cons]
          rw [hc.res p cc c _ hct]
          exact hf
        · simp only [if_neg cc]; exact inv.fin p
      · intro p
        by_cases cc : p < N
        · simp only [if_pos cc]
          exact (List.tail_suffix _).trans (inv.suf p)
        · simp only [if_neg cc]; exact inv.suf p
      · intro p hp q hq
        obtain ⟨a, t', e, ha, _⟩ := hall p hp
        obtain ⟨b, t2, e2, hb, _⟩ := hall q hq
        have := inv.same p hp q hq
        rw [e, e2, List.filterMap_cons_some (b := c) (by unfold GX.collId; rw [ha]),
          List.filterMap_cons_some (b := c) (by unfold GX.collId; rw [hb])] at this
        simp only [if_pos hp, if_pos hq, e, e2, List.tail_cons]
        exact (List.cons.inj this).2
  | buf p q out t h =>
    rw [inv.rem p] at h
    obtain ⟨a, t', e, ha, ht⟩ := head_of h.symm
    have hp' : (fun p => ((u p).map GX.toAct).map Act.er) p = (.send q, a.msg) :: (t'.map GX.toAct).map Act.er := by
      simp only [e, List.map_cons, Act.er, GX.toAct, ha, XAct.kind]
    have hpk : out (st.mem p) = a.msg := by
      have := inv.walk p
      rw [e] at this
      have := this.1
      unfold expects at this
      rw [ha] at this
      exact this
    obtain ⟨hw1, hf1⟩ := inv.one e (mp := st.mem p) (by unfold gst; rw [ha])
    rw [upP_self] at hw1 hf1
    refine ⟨upP u p t', k + 1, upP_rem inv.rem p t' ht, ?_, hw1, hf1, suf_upd inv.suf e,
      same_upd inv.same e (collId_other (by rw [ha]; intro c hh; cases hh))⟩
    refine ESteps.snoc inv.run ?_
    have := EStep.buf ⟨fun p => ((u p).map GX.toAct).map Act.er, st.chan⟩ p q a.msg _ hp'
    rw [setRem_map] at this
    rw [hpk]
    exact this

theorem XInv.reach (ok : ExecOK (fun p => (G p).map GX.toAct) g) (hc : CollOK N cf G CT res) (hw : ∀ p, XWalk (res p) (m0 p) (G p))
    {k : Nat} {st : XState M V} (h : XSteps N cf k (XState.start (fun p => (G p).map (·.act)) m0) st) :
    ∃ u k', XInv N res G m0 st u k' := by
  generalize hs : XState.start (fun p => (G p).map (·.act)) m0 = s0 at h
  induction h with
  | nil => subst hs; exact ⟨_, _, XInv.start hc hw⟩
  | snoc _ hst ih =>
    obtain ⟨u, k', i⟩ := ih hs
    exact i.step ok hc hst

theorem act_inv {u : List (GX M V)} {k : AKind} {x : List V} {t : Prog (List V)}
    (h : (u.map GX.toAct).map Act.er = (k, x) :: t) : ∃ a t', u = a :: t' ∧ a.act.kind = k ∧ a.msg = x := by
  cases u with
  | nil => cases h
  | cons a t' =>
    simp only [List.map_cons, List.cons.injEq, Act.er, GX.toAct, Prod.mk.injEq] at h
    exact ⟨a, t', rfl, h.1.1, h.1.2⟩

/-- Not stuck. -/
theorem XInv.progress (ok : ExecOK (fun p => (G p).map GX.toAct) g) (hc : CollOK N cf G CT res) {st : XState M V}
    {u : Nat → List (GX M V)} {k : Nat} (inv : XInv N res G m0 st u k) : XDone st ∨ ∃ st', XRStep N cf st st' := by
  obtain ⟨tt, ch, ei⟩ := EInv.reach ok inv.run
  rcases ei.progress ok with h | ⟨s', h⟩
  · left
    refine ⟨fun p => ?_, h.2⟩
    have := h.1 p
    simp only [List.map_eq_nil_iff] at this
    rw [inv.rem, this]; rfl
  · right
    cases h with
    | loc p x t h =>
      obtain ⟨a, t', e, hk, _⟩ := act_inv h
      have hr := inv.rem p
      rw [e, List.map_cons] at hr
      cases ha : a.act with
      | loc f => rw [ha] at hr; exact ⟨_, .loc st p f _ hr⟩
      | send => rw [ha] at hk; cases hk
      | recv => rw [ha] at hk; cases hk
      | coll => rw [ha] at hk; cases hk
    | recv p q x y t c hq hch =>
      obtain ⟨a, t', e, hk, hm⟩ := act_inv hq
      have hv := (ei.step_recv (p := p) (q := q) hq hch).1
      have hr := inv.rem q
      rw [e, List.map_cons] at hr
      have hw := inv.walk q
      rw [e] at hw
      have h1 := hw.1
      unfold expects at h1
      cases ha : a.act with
      | loc => rw [ha] at hk; cases hk
      | send => rw [ha] at hk; cases hk
      | coll => rw [ha] at hk; cases hk
      | recv q' n inn =>
        rw [ha] at hk hr h1; cases hk
        exact ⟨_, .recv st p q n inn _ x c hr hch (by rw [hv, ← hm]; exact h1)⟩
    | meet p q x y t t' hne hp hq hch =>
      obtain ⟨a, t1, e, hk, hm⟩ := act_inv hp
      obtain ⟨b, t2, e2, hk2, hm2⟩ := act_inv hq
      have hv := (ei.step_meet (p := p) (q := q) hne hp hq hch).1
      have hr := inv.rem p
      rw [e, List.map_cons] at hr
      have hr2 := inv.rem q
      rw [e2, List.map_cons] at hr2
      have hw := inv.walk p
      rw [e] at hw
      have h1 := hw.1
      have hw2 := inv.walk q
      rw [e2] at hw2
      have h2 := hw2.1
      unfold expects at h1 h2
      cases ha : a.act with
      | loc => rw [ha] at hk; cases hk
      | recv => rw [ha] at hk; cases hk
      | coll => rw [ha] at hk; cases hk
      | send q1 out =>
        rw [ha] at hk hr h1; cases hk
        cases hb : b.act with
        | loc => rw [hb] at hk2; cases hk2
        | send => rw [hb] at hk2; cases hk2
        | coll => rw [hb] at hk2; cases hk2
        | recv q2 n inn =>
          rw [hb] at hk2 hr2 h2; cases hk2
          refine ⟨_, .meet st p q n out inn _ _ hne hr hr2 hch ?_⟩
          rw [show out (st.mem p) = a.msg from h1, hm, hv, ← hm2]
          exact h2
    | coll c hex hall =>
      obtain ⟨p, x, t, h⟩ := hex
      obtain ⟨a, t', e, hk, _⟩ := act_inv h
      have hpN : p < N := by
        by_contra hp
        have := inv.suf p
        rw [hc.out p (by omega)] at this
        rw [List.suffix_nil.1 this] at e
        cases e
      have hcid : ∀ b : GX M V, b.act.kind = .coll c ↔ b.collId = some c := by
        intro b
        unfold GX.collId
        cases b.act <;> simp [XAct.kind]
      have hhead : ∀ q, q < N → ∃ b o i t, u q = b :: t ∧ b.act = .coll c o i := by
        intro q hq
        have hs := inv.same p hpN q hq
        rw [e, List.filterMap_cons_some ((hcid a).1 hk)] at hs
        have hmem : c ∈ (u q).filterMap GX.collId := by rw [← hs]; exact List.mem_cons_self
        obtain ⟨b, hb, hbc⟩ := List.mem_filterMap.1 hmem
        obtain ⟨y, t2, h2⟩ := hall q b.msg (by
          refine List.mem_map.2 ⟨b.toAct, List.mem_map_of_mem hb, ?_⟩
          simp only [Act.er, GX.toAct, (hcid b).2 hbc])
        obtain ⟨b', t3, e3, hk3, _⟩ := act_inv h2
        cases hb' : b'.act with
        | loc => rw [hb'] at hk3; cases hk3
        | send => rw [hb'] at hk3; cases hk3
        | recv => rw [hb'] at hk3; cases hk3
        | coll c' o i => rw [hb'] at hk3; cases hk3; exact ⟨b', o, i, t3, e3, hb'⟩
      have hch : ∃ (o : Nat → M → List V) (i : Nat → M → List V → M) (t : Nat → List (XAct M V)),
          ∀ q < N, st.rem q = .coll c (o q) (i q) :: t q := by
        have one : ∀ q, ∃ (o : M → List V) (i : M → List V → M) (t : List (XAct M V)), q < N → st.rem q = .coll c o i :: t := by
          intro q
          by_cases cc : q < N
          · obtain ⟨b, o, i, t, e1, e2⟩ := hhead q cc
            exact ⟨o, i, t.map (·.act), fun _ => by rw [inv.rem q, e1, List.map_cons, e2]⟩
          · exact ⟨fun _ => [], fun m _ => m, [], fun h => absurd h cc⟩
        exact ⟨fun q => Classical.choose (one q), fun q => Classical.choose (Classical.choose_spec (one q)),
          fun q => Classical.choose (Classical.choose_spec (Classical.choose_spec (one q))),
          fun q hq => Classical.choose_spec (Classical.choose_spec (Classical.choose_spec (one q))) hq⟩
      obtain ⟨o, i, tt', hh⟩ := hch
      exact ⟨_, .coll st c o i tt' (by omega) hh⟩

/-- Memory at the end. -/
theorem XInv.done {st : XState M V} {u : Nat → List (GX M V)} {k : Nat}
    (inv : XInv N res G m0 st u k) (h : ∀ p, st.rem p = []) (p : Nat) : st.mem p = XFinal (res p) (m0 p) (G p) := by
  have := inv.rem p
  rw [h p] at this
  have hu : u p = [] := by simpa using this.symm
  rw [← inv.fin p, hu]
  rfl

/-- Number of actions left in the first `n` processes. -/
def left (n : Nat) (st : XState M V) : Nat := ((List.range n).map (fun p => (st.rem p).length)).sum

theorem sum_upP {β : Type} (n : Nat) (f : Nat → List β) (p : Nat) (t : List β) (a : β) (h : f p = a :: t) (hp : p < n) :
    ((List.range n).map (fun q => (upP f p t q).length)).sum + 1 = ((List.range n).map (fun q => (f q).length)).sum := by
  induction n with
  | zero => omega
  | succ n ih =>
    rw [List.range_succ, List.map_append, List.map_append, List.sum_append, List.sum_append]
    simp only [List.map_cons, List.map_nil, List.sum_cons, List.sum_nil]
    by_cases c : p = n
    · subst c
      have : ∀ q ∈ List.range p, (upP f p t q).length = (f q).length := by
        intro q hq
        have : q ≠ p := by have := List.mem_range.1 hq; omega
        simp [upP, this]
      rw [List.map_congr_left this]
      simp [upP, h]
      omega
    · have := ih (by omega)
      have e : upP f p t n = f n := by simp [upP, Ne.symm c]
      rw [e]
      omega

/-- Every step does at least one action. -/
theorem left_step {a b : XState M V} (h : XStep N cf a b) (hn : ∀ p, N ≤ p → a.rem p = []) :
    left N b + 1 ≤ left N a ∧ ∀ p, N ≤ p → b.rem p = [] := by
  have lt : ∀ {p d t}, a.rem p = d :: t → p < N := by
    intro p d t e
    rcases Nat.lt_or_ge p N with c | c
    · exact c
    · rw [hn p c] at e; cases e
  have one : ∀ {p d t}, a.rem p = d :: t → ∀ q, N ≤ q → upP a.rem p t q = [] := by
    intro p d t e q hq
    have := lt e
    unfold upP
    rw [if_neg (by omega)]
    exact hn q hq
  unfold left
  cases h with
  | sync _ h =>
    cases h with
    | loc p f t h => exact ⟨Nat.le_of_eq (sum_upP N a.rem p t _ h (lt h)), one h⟩
    | recv p q n inn t vs c h hc hl => exact ⟨Nat.le_of_eq (sum_upP N a.rem q t _ h (lt h)), one h⟩
    | meet p q n out inn t t' hne hp hq hc hl =>
      have e1 := sum_upP N a.rem p t _ hp (lt hp)
      have e2 := sum_upP N (upP a.rem p t) q t' (.recv p n inn) (by unfold upP; rw [if_neg (Ne.symm hne)]; exact hq) (lt hq)
      refine ⟨?_, ?_⟩
      · simp only []
        omega
      · intro r hr
        have := lt hq
        show upP (upP a.rem p t) q t' r = []
        unfold upP
        rw [if_neg (by omega)]
        exact one hp r hr
    | coll c out inn t hN h =>
      refine ⟨?_, ?_⟩
      · have h1 : (a.rem 0).length = (t 0).length + 1 := by rw [h 0 hN]; rfl
        have h2 : ∀ p, (if p < N then t p else a.rem p).length ≤ (a.rem p).length := by
          intro p
          split
          · rename_i hp; rw [h p hp]; simp
          · exact Nat.le_refl _
        obtain ⟨k, rfl⟩ : ∃ k, N = k + 1 := ⟨N - 1, by omega⟩
        rw [List.range_succ_eq_map]
        simp only [List.map_cons, List.map_map, List.sum_cons]
        have h3 : ∀ l : List Nat, (l.map ((fun p => (if p < k + 1 then t p else a.rem p).length) ∘ Nat.succ)).sum ≤
            (l.map ((fun p => (a.rem p).length) ∘ Nat.succ)).sum := by
          intro l
          induction l with
          | nil => exact Nat.le_refl _
          | cons x l ih =>
            simp only [List.map_cons, List.sum_cons]
            exact Nat.add_le_add (h2 _) ih
        have := h3 (List.range k)
        rw [if_pos (by omega)]
        omega
      · intro p hp
        show (if p < N then t p else a.rem p) = []
        rw [if_neg (by omega)]
        exact hn p hp
  | buf p q out t h => exact ⟨Nat.le_of_eq (sum_upP N a.rem p t _ h (lt h)), one h⟩

theorem left_steps {k : Nat} {a b : XState M V} (h : XSteps N cf k a b) (hn : ∀ p, N ≤ p → a.rem p = []) :
    k + left N b ≤ left N a ∧ ∀ p, N ≤ p → b.rem p = [] := by
  induction h with
  | nil => exact ⟨by omega, hn⟩
  | snoc _ hs ih =>
    obtain ⟨i1, i2⟩ := ih hn
    obtain ⟨j1, j2⟩ := left_step hs i2
    exact ⟨by omega, j2⟩

end Laik.NX
