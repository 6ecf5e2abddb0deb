import Verif.Model.CollSplit
import Verif.Model.ChoreoLive
/-!
# Executions of sequences of events over the message passing of the backend
-/

namespace Laik.Mm

open Function

variable {σ : Type} {S : Comm → Prop} {es : List (Ev σ)} {st : Nat → Nat → σ}

theorem CI.forward (hS : Sep S) (hT : Traj es st) {u v : Ideal σ} {a g : Nat → Nat}
    (h : CI S es st u a g) (hs : ISteps u v) : ∃ a' g', CI S es st v a' g' := by
  induction hs with
  | refl => exact ⟨a, g, h⟩
  | tail _ hs ih =>
    obtain ⟨a1, g1, h1⟩ := ih
    obtain ⟨p, a', g', k1, k2, k3, -, k5⟩ := h1.step hS hT hs
    exact ⟨_, _, k5⟩

/-- Processes are somewhere in the sequence. -/
theorem reach (hS : Sep S) {s : Nat → σ} (hT : Traj es st) (h0 : st 0 = s) (hw : WF S none es)
    {A il ol : Nat} {L : Item → Prop} {τ : Sys σ}
    (h : Steps A L (Sys.start il ol fun p => proj p es (s p)) τ) :
    ∃ u a g, ISteps (Ideal.start fun p => proj p es (s p)) u ∧ Inv S τ u ∧ CI S es st u a g := by
  obtain ⟨u, h1, h2⟩ := (Inv.start il ol fun p => proj_uses p es none (s p) hw).steps hS h
  obtain ⟨a, g, h3⟩ := (CI.start hw h0).forward hS hT h1
  exact ⟨u, a, g, h1, h2, h3⟩

theorem PI.ret_or (hS : Sep S) (hT : Traj es st) {p : Nat} {prog : Prog σ} {bg : List Snd} {a g : Nat}
    (h : PI S es st p prog bg a g) : prog ≠ .err ∧ ∀ x, prog = .ret x → x = st es.length p := by
  obtain ⟨a', g', -, -, h1, -, -, h2⟩ := h.norm hT _ _ _ (Nat.le_refl _)
  cases h1.view hS hT h2 with
  | done hl hp =>
    subst hl hp
    exact ⟨by simp, fun x hx => (Prog.ret.inj hx).symm⟩
  | send X Q sy b k hX hm hg hb hp =>
    subst hp
    cases sy <;> simp
  | recv X P b k g' hX hm hp => subst hp; simp
  | fork ms k hc hm hg hb hp => subst hp; simp
  | join k hm hg hp => subst hp; simp

theorem choreo_results (hS : Sep S) {s t : Nat → σ} (hw : WF S none es) (hr : run es s = some t)
    {A il ol : Nat} {L : Item → Prop} {τ : Sys σ}
    (h : Steps A L (Sys.start il ol fun p => proj p es (s p)) τ) (p : Nat) :
    (τ.proc p).pc ≠ .dead ∧ (τ.proc p).pc ≠ .run .err ∧ ∀ x, (τ.proc p).pc = .run (.ret x) → x = t p := by
  obtain ⟨st, hT, h0, hl⟩ := Traj.of_run hr
  obtain ⟨u, a, g, -, h2, h3⟩ := reach hS hT h0 hw h
  obtain ⟨h4, h5⟩ := (h3.pi p).ret_or hS hT
  have h6 := (h2.pc p).2
  refine ⟨(h2.pc p).1, fun e => h4 ?_, fun x e => ?_⟩
  · rw [h6, e]; rfl
  · rw [h5 x (by rw [h6, e]; rfl), hl]

theorem choreo_completes (hS : Sep S) {N : Nat} (hN : ∀ c, S c → ∀ p ∈ c.tasks, p < N) {s t : Nat → σ}
    (hw : WF S none es) (hr : run es s = some t) {A il ol : Nat} (hA : 2 ≤ A) {L : Item → Prop}
    (hL : ∀ q h b, ¬ L (.getRep q h b)) (hD : ∀ p h, ¬ L (.disc p h)) {τ : Sys σ}
    (h : Steps A L (Sys.start il ol fun p => proj p es (s p)) τ) (hf : ∀ p, (τ.proc p).pc.fine A) :
    ∃ υ, Steps A (fun _ => False) τ υ ∧ ∀ p, p < N → (υ.proc p).pc = .run (.ret (t p)) := by
  obtain ⟨st, hT, h0, hl⟩ := Traj.of_run hr
  obtain ⟨u, h1, h2⟩ := (All.start il ol fun p => proj_uses p es none (s p) hw).steps hS hL hD h
  obtain ⟨a, g, h3⟩ := (CI.start hw h0).forward hS hT h1
  have hb : Brk (Sys.start il ol fun p => proj p es (s p)) := fun p =>
    Or.inl ⟨rfl, rfl, by
      have := proj_blk hS p es none (s p) hw
      rw [if_neg (by simp)] at this
      exact this⟩
  obtain ⟨υ, h4, h5⟩ := LS.finish hS hT hN hA _ τ u a g (Nat.le_refl _) ⟨h2, hb.steps h, h3, hf⟩
  exact ⟨υ, h4, fun p hp => by rw [h5 p hp, hl]⟩

/-! ### what happened before -/

theorem ISteps.rd_le {t u : Ideal σ} (h : ISteps t u) (h0 : ∀ X, t.rd X ≤ (t.sent X).length) :
    ∀ X, u.rd X ≤ (u.sent X).length := by
  induction h with
  | refl => exact h0
  | tail _ hs ih =>
    have key : ∀ (t : Ideal σ) (Y : Chan) (b : Body), (∀ X, t.rd X ≤ (t.sent X).length) → ∀ X,
        t.rd X ≤ (update t.sent Y (t.sent Y ++ [b]) X).length := by
      intro t Y b h X
      have := h X
      by_cases e : X = Y
      · subst e; simp; omega
      · simpa [e] using this
    cases hs with
    | send p m k h => exact key _ _ _ ih
    | ssend p m k h => exact key _ _ _ ih
    | bg p m ms h => exact key _ _ _ ih
    | fork p ms k h hb => exact ih
    | join p k h hb => exact ih
    | recv p m k b h hb =>
      intro X
      have := ih X
      by_cases e : X = m.chan
      · subst e
        have := (List.getElem?_eq_some_iff.mp hb).1
        simp; omega
      · simpa [e] using this

/-- Who got the message of event `j` knows that it was sent. -/
theorem CI.causal {u : Ideal σ} {a g : Nat → Nat} (h : CI S es st u a g)
    (hrd : ∀ X, u.rd X ≤ (u.sent X).length) {j : Nat} {X : Chan} {sy : Bool} {out : σ → Body}
    {upd : σ → Body → Option σ} (he : es[j]? = some (.tr X sy out upd)) {P Q : Nat} (hX : Ends S X P Q)
    (ha : j < a Q) : j < g P := by
  refine Nat.lt_of_not_le fun hle => ?_
  have h1 := hrd X
  rw [h.sent X P Q hX, h.rd X P Q hX] at h1
  have h2 := ms_le (es := es) (st := st) X hle
  have h3 := ms_le (es := es) (st := st) X (show j + 1 ≤ a Q from ha)
  have h4 : (ms es st (j + 1) X).length = (ms es st j X).length + 1 := by
    rw [ms, emit_eq (emit_tr he hX)]
    simp
  omega

theorem Traj.run_take (hT : Traj es st) : ∀ i, i ≤ es.length → run (es.take i) (st 0) = some (st i) := by
  intro i
  induction i with
  | zero => exact fun _ => rfl
  | succ i ih =>
    intro hi
    have he : es[i]? = some es[i] := by simp
    rw [List.take_succ_eq_append_getElem (by omega), run_append, ih (by omega)]
    simp [run, hT i _ he]

end Laik.Mm
