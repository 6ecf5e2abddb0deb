import Verif.Spec.Choreo
import Verif.Model.MiniMpiProgress
/-!
# Programs of processes for a sequence of events
-/

namespace Laik.Mm

open Function

variable {σ : Type} {S : Comm → Prop}

/-- Messages sent by `p` in the background, up to the next `join`. -/
def bsends (p : Nat) : List (Ev σ) → List Snd
  | .bt X b _ :: es =>
    if X.src = some p then ⟨X.c, X.s, X.ty, X.r, X.tag, b⟩ :: bsends p es else bsends p es
  | _ => []

/-- What process `p` does for a sequence of events. -/
def proj (p : Nat) : List (Ev σ) → σ → Prog σ
  | [], s => .ret s
  | .loc q f :: es, s =>
    if q = p then
      match f s with
      | some s' => proj p es s'
      | none => .err
    else proj p es s
  | .tr X sy out upd :: es, s =>
    if X.src = some p then
      if sy then .ssend ⟨X.c, X.s, X.ty, X.r, X.tag, out s⟩ (proj p es s)
      else .send ⟨X.c, X.s, X.ty, X.r, X.tag, out s⟩ (proj p es s)
    else if X.dst = some p then
      .recv ⟨X.c, X.r, X.ty, X.s, X.tag⟩ fun b =>
        match upd s b with
        | some s' => proj p es s'
        | none => .err
    else proj p es s
  | .fork c :: es, s =>
    if p ∈ c.tasks then .fork (bsends p es) (proj p es s) else proj p es s
  | .bt X _ upd :: es, s =>
    if X.dst = some p then
      .recv ⟨X.c, X.r, X.ty, X.s, X.tag⟩ fun b =>
        match upd s b with
        | some s' => proj p es s'
        | none => .err
    else proj p es s
  | .join c :: es, s => if p ∈ c.tasks then .join (proj p es s) else proj p es s

theorem Chan.Valid.ends {X : Chan} (h : X.Valid S) : ∃ P Q, Ends S X P Q ∧ X.src = some P ∧
    X.dst = some Q := by
  obtain ⟨h1, h2, h3, h4⟩ := h
  exact ⟨X.c.tasks[X.s], X.c.tasks[X.r], ⟨h1, by simp [h2], by simp [h3], h4⟩, by simp [Chan.src, h2],
    by simp [Chan.dst, h3]⟩

theorem Ends.src {X : Chan} {P Q : Nat} (h : Ends S X P Q) : X.src = some P := h.fst
theorem Ends.dst {X : Chan} {P Q : Nat} (h : Ends S X P Q) : X.dst = some Q := h.snd

theorem mem_bsends {p : Nat} {c : Comm} {es : List (Ev σ)} (h : WF S (some c) es) {m : Snd}
    (hm : m ∈ bsends p es) : m.OK S p ∧ m.c = c := by
  induction es with
  | nil => simp [bsends] at hm
  | cons e es ih =>
    cases e with
    | bt X b upd =>
      obtain ⟨h1, h2, h3⟩ := h
      simp only [bsends] at hm
      split at hm
      · rename_i hs
        rcases List.mem_cons.mp hm with rfl | hm
        · exact ⟨⟨h1.1, hs, h1.2.2.1, fun e => h1.2.2.2 e.symm⟩, h2⟩
        · exact ih h3 hm
      · exact ih h3 hm
    | _ => simp [bsends] at hm

/-- Programs use communicators correctly. -/
theorem proj_uses (p : Nat) : ∀ (es : List (Ev σ)) (m : Option Comm) (s : σ), WF S m es →
    Uses S p (proj p es s) := by
  intro es
  induction es with
  | nil => exact fun _ s _ => .ret s
  | cons e es ih =>
    intro m s h
    have rcv : ∀ (X : Chan) (upd : σ → Body → Option σ), X.Valid S → X.dst = some p →
        (∀ s, Uses S p (proj p es s)) →
        Uses S p (.recv ⟨X.c, X.r, X.ty, X.s, X.tag⟩ fun b =>
          match upd s b with
          | some s' => proj p es s'
          | none => .err) := by
      intro X upd h1 hd hu
      refine .recv ⟨h1.1, hd, h1.2.1, h1.2.2.2⟩ fun b => ?_
      split
      · exact hu _
      · exact .err
    cases m with
    | none =>
      cases e with
      | loc q f =>
        simp only [proj]
        split
        · split
          · exact ih none _ h
          · exact .err
        · exact ih none _ h
      | tr X sy out upd =>
        obtain ⟨h1, h2⟩ := h
        simp only [proj]
        split
        · rename_i hs
          split
          · exact .ssend ⟨h1.1, hs, h1.2.2.1, fun e => h1.2.2.2 e.symm⟩ (ih none _ h2)
          · exact .send ⟨h1.1, hs, h1.2.2.1, fun e => h1.2.2.2 e.symm⟩ (ih none _ h2)
        · split
          · rename_i hd
            exact rcv X upd h1 hd fun s => ih none s h2
          · exact ih none _ h2
      | fork c =>
        simp only [proj]
        split
        · exact .fork (fun m hm => (mem_bsends h.2 hm).1) (ih _ _ h.2)
        · exact ih _ _ h.2
      | bt X b upd => exact h.elim
      | join c => exact h.elim
    | some c =>
      cases e with
      | bt X b upd =>
        simp only [proj]
        split
        · rename_i hd
          exact rcv X upd h.1 hd fun s => ih (some c) s h.2.2
        · exact ih _ _ h.2.2
      | join d =>
        simp only [proj]
        split
        · exact .join (ih _ _ h.2)
        · exact ih _ _ h.2
      | loc q f => exact h.elim
      | tr X sy out upd => exact h.elim
      | fork d => exact h.elim

/-! ### programs which send nothing between `fork` and `join` -/

mutual
/-- Outside of `fork` and `join`. -/
inductive Blk : Prog σ → Prop
  | ret (x : σ) : Blk (.ret x)
  | err : Blk .err
  | send {m : Snd} {k : Prog σ} (hk : Blk k) : Blk (.send m k)
  | ssend {m : Snd} {k : Prog σ} (hk : Blk k) : Blk (.ssend m k)
  | recv {m : Rcv} {k : Body → Prog σ} (hk : ∀ b, Blk (k b)) : Blk (.recv m k)
  | fork {ms : List Snd} {k : Prog σ} (hk : InBlk k) : Blk (.fork ms k)
/-- Between `fork` and `join`. -/
inductive InBlk : Prog σ → Prop
  | err : InBlk .err
  | recv {m : Rcv} {k : Body → Prog σ} (hk : ∀ b, InBlk (k b)) : InBlk (.recv m k)
  | join {k : Prog σ} (hk : Blk k) : InBlk (.join k)
end

theorem proj_blk (hS : Sep S) (p : Nat) : ∀ (es : List (Ev σ)) (m : Option Comm) (s : σ), WF S m es →
    (if ∃ c, m = some c ∧ p ∈ c.tasks then InBlk (proj p es s) else Blk (proj p es s)) := by
  intro es
  induction es with
  | nil =>
    intro m s h
    cases m with
    | none => simpa using .ret s
    | some c => exact h.elim
  | cons e es ih =>
    intro m s h
    cases m with
    | none =>
      rw [if_neg (by simp)]
      have ih0 : ∀ s, WF S none es → Blk (proj p es s) := by
        intro s h
        simpa using ih none s h
      cases e with
      | loc q f =>
        simp only [proj]
        split
        · split
          · exact ih0 _ h
          · exact .err
        · exact ih0 _ h
      | tr X sy out upd =>
        obtain ⟨h1, h2⟩ := h
        simp only [proj]
        split
        · split
          · exact .ssend (ih0 _ h2)
          · exact .send (ih0 _ h2)
        · split
          · refine .recv fun b => ?_
            split
            · exact ih0 _ h2
            · exact .err
          · exact ih0 _ h2
      | fork c =>
        have := ih (some c) s h.2
        simp only [proj]
        split
        · rename_i hp
          rw [if_pos ⟨c, rfl, hp⟩] at this
          exact .fork this
        · rename_i hp
          rw [if_neg (by rintro ⟨d, e, hd⟩; cases e; exact hp hd)] at this
          exact this
      | bt X b upd => exact h.elim
      | join c => exact h.elim
    | some c =>
      cases e with
      | bt X b upd =>
        have ih0 := fun s => ih (some c) s h.2.2
        by_cases hp : X.dst = some p
        · simp only [proj, if_pos hp]
          have hin : p ∈ c.tasks := by
            rw [← h.2.1]
            exact List.mem_of_getElem? hp
          rw [if_pos ⟨c, rfl, hin⟩]
          refine .recv fun b => ?_
          split
          · have := ih0 (by assumption)
            rwa [if_pos ⟨c, rfl, hin⟩] at this
          · exact .err
        · simp only [proj, if_neg hp]
          exact ih0 s
      | join d =>
        obtain ⟨rfl, h⟩ := h
        have := ih none s h
        rw [if_neg (by simp)] at this
        by_cases hp : p ∈ d.tasks
        · simp only [proj, if_pos hp]
          rw [if_pos ⟨d, rfl, hp⟩]
          exact .join this
        · simp only [proj, if_neg hp]
          rw [if_neg (by rintro ⟨d, e, hd⟩; cases e; exact hp hd)]
          exact this
      | loc q f => exact h.elim
      | tr X sy out upd => exact h.elim
      | fork d => exact h.elim

/-- A blocked thread has no sends in the background. -/
def Brk (τ : Sys σ) : Prop :=
  ∀ p, ((τ.proc p).bg = [] ∧ (τ.proc p).bgBlk = false ∧ Blk (τ.proc p).pc.abs) ∨
    (InBlk (τ.proc p).pc.abs ∧ (∀ k, (τ.proc p).pc ≠ .blocked k) ∧
      ∀ q h k, (τ.proc p).pc ≠ .syncing q h k)

def BrkP (P : Proc σ) : Prop :=
  (P.bg = [] ∧ P.bgBlk = false ∧ Blk P.pc.abs) ∨
    (InBlk P.pc.abs ∧ (∀ k, P.pc ≠ .blocked k) ∧ ∀ q h k, P.pc ≠ .syncing q h k)

theorem Brk.set {τ : Sys σ} (h : Brk τ) {p : Nat} {P : Proc σ} {net : List Item}
    (hP : BrkP (τ.proc p) → BrkP P) : Brk ⟨update τ.proc p P, net⟩ := by
  intro q
  by_cases hq : q = p
  · subst hq
    simpa [BrkP] using hP (h q)
  · simpa [hq] using h q

theorem Brk.step {A : Nat} {L : Item → Prop} {τ υ : Sys σ} (h : Brk τ) (hs : Step A L τ υ) :
    Brk υ := by
  cases hs with
  | push p q m k hp hq =>
    refine h.set ?_
    rintro (⟨h1, h2, h3⟩ | ⟨h1, -⟩)
    · rw [hp] at h3
      cases h3 with
      | send hk => exact Or.inl ⟨h1, h2, hk⟩
    · rw [hp] at h1
      cases h1
  | unblock p k hp hs =>
    refine h.set ?_
    rintro (⟨h1, h2, h3⟩ | ⟨h1, h2, -⟩)
    · rw [hp] at h3
      exact Or.inl ⟨h1, h2, h3⟩
    · exact absurd hp (h2 _)
  | sync p q m k hp hq =>
    refine h.set ?_
    rintro (⟨h1, h2, h3⟩ | ⟨h1, -⟩)
    · rw [hp] at h3
      cases h3 with
      | ssend hk => exact Or.inl ⟨h1, h2, hk⟩
    · rw [hp] at h1
      cases h1
  | addSend p q hd k b hp hb => exact h
  | addRecv p q hd b hx => exact h.set id
  | addDone p q hd k hp hx =>
    refine h.set ?_
    rintro (⟨h1, h2, h3⟩ | ⟨h1, -, h2⟩)
    · rw [hp] at h3
      exact Or.inl ⟨h1, h2, h3⟩
    · exact absurd hp (h2 _ _ _)
  | syncGone p q hd k hp hb =>
    refine h.set ?_
    rintro (⟨h1, h2, h3⟩ | ⟨h1, -, h2⟩)
    · rw [hp] at h3
      exact Or.inl ⟨h1, h2, h3⟩
    · exact absurd hp (h2 _ _ _)
  | ask p q m k hp hq =>
    refine h.set ?_
    rintro (⟨h1, h2, h3⟩ | ⟨h1, -⟩)
    · rw [hp] at h3
      exact Or.inl ⟨h1, h2, h3⟩
    · rw [hp] at h1
      exact Or.inr ⟨h1, by simp, by simp⟩
  | hit p q m hd att k b hp ha hb =>
    refine h.set ?_
    rintro (⟨h1, h2, h3⟩ | ⟨h1, -⟩)
    · rw [hp] at h3
      cases h3 with
      | recv hk => exact Or.inl ⟨h1, h2, hk b⟩
    · rw [hp] at h1
      cases h1 with
      | recv hk => exact Or.inr ⟨hk b, by simp, by simp⟩
  | miss p q m hd att k hp ha hb =>
    refine h.set ?_
    rintro (⟨h1, h2, h3⟩ | ⟨h1, -⟩)
    · rw [hp] at h3
      exact Or.inl ⟨h1, h2, h3⟩
    · rw [hp] at h1
      exact Or.inr ⟨h1, by simp, by simp⟩
  | fail p q m hd att k hp ha =>
    refine h.set ?_
    rintro (⟨h1, h2, h3⟩ | ⟨h1, -⟩)
    · rw [hp] at h3
      exact Or.inl ⟨h1, h2, h3⟩
    · rw [hp] at h1
      exact Or.inr ⟨h1, by simp, by simp⟩
  | deadSend p m k hp hq => exact h.set fun _ => Or.inr ⟨.err, by simp, by simp⟩
  | deadRecv p m k hp hq => exact h.set fun _ => Or.inr ⟨.err, by simp, by simp⟩
  | fork p ms k hp hb hc =>
    refine h.set ?_
    rintro (⟨h1, h2, h3⟩ | ⟨h1, -⟩)
    · rw [hp] at h3
      cases h3 with
      | fork hk => exact Or.inr ⟨hk, by simp, by simp⟩
    · rw [hp] at h1
      cases h1
  | bgPush p q m ms hb hc hq =>
    refine h.set ?_
    rintro (⟨h1, -⟩ | h1)
    · rw [h1] at hb
      cases hb
    · exact Or.inr h1
  | deadBg p m ms hb hc hq => exact h.set fun _ => Or.inr ⟨.err, by simp, by simp⟩
  | bgUnblock p hc hs =>
    refine h.set ?_
    rintro (⟨h1, h2, h3⟩ | h1)
    · exact Or.inl ⟨h1, rfl, h3⟩
    · exact Or.inr h1
  | join p k hp hb hc =>
    refine h.set ?_
    rintro (⟨h1, h2, h3⟩ | ⟨h1, -⟩)
    · rw [hp] at h3
      cases h3
    · rw [hp] at h1
      cases h1 with
      | join hk => exact Or.inl ⟨hb, hc, hk⟩
  | trySend p q hd b hx hb => exact h
  | tryDrop p q hd hx hb => exact h
  | tryRecv p q hd b hx hr => exact h.set id
  | tryRefuse p q hd b hx hr => exact h
  | disc p hd hx => exact h.set id
  | getSend q p hd b hx hb => exact h
  | getNone q p hd hx hb => exact h
  | getRecv q hd b hx => exact h.set id
  | lose x hx hl => exact h

theorem Brk.steps {A : Nat} {L : Item → Prop} {τ υ : Sys σ} (h : Brk τ) (hs : Steps A L τ υ) :
    Brk υ := by
  induction hs with
  | refl => exact h
  | tail _ hs ih => exact ih.step hs

end Laik.Mm
