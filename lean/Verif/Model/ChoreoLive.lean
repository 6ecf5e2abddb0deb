import Mathlib.Tactic.ByContra
import Verif.Model.ChoreoRun
/-!
# The programs for a sequence of events get done with the TCP backend based on GLib

Among all processes, the one which is at the earliest event always can go on.
-/

namespace Laik.Mm

open Function

variable {σ : Type} {S : Comm → Prop} {es : List (Ev σ)} {st : Nat → Nat → σ}

theorem send_ne (m : Snd) (k : Prog σ) : k ≠ .send m k := by
  intro h
  have := congrArg sizeOf h
  simp at this

theorem ssend_ne (m : Snd) (k : Prog σ) : k ≠ .ssend m k := by
  intro h
  have := congrArg sizeOf h
  simp at this

theorem fork_ne (ms : List Snd) (k : Prog σ) : k ≠ .fork ms k := by
  intro h
  have := congrArg sizeOf h
  simp at this

theorem join_ne (k : Prog σ) : k ≠ .join k := by
  intro h
  have := congrArg sizeOf h
  simp at this

theorem recv_ne (m : Rcv) (k : Body → Prog σ) (b : Body) : k b ≠ .recv m k := by
  have key : ∀ x : Prog σ, ∀ k, x = .recv m k → k b = x → False := by
    intro x
    induction x with
    | recv m' k' ih =>
      intro k h1 h2
      simp only [Prog.recv.injEq] at h1
      obtain ⟨rfl, rfl⟩ := h1
      exact ih b k' h2 rfl
    | _ =>
      intro k h1 _
      cases h1
  intro h
  exact key _ k rfl h

/-! ### sums -/

def tot (f : Nat → Nat) : Nat → Nat
  | 0 => 0
  | n + 1 => tot f n + f n

theorem tot_le {f h : Nat → Nat} {n : Nat} (hl : ∀ p, p < n → f p ≤ h p) : tot f n ≤ tot h n := by
  induction n with
  | zero => exact Nat.le_refl _
  | succ n ih =>
    have := ih fun p hp => hl p (by omega)
    have := hl n (by omega)
    simp only [tot]
    omega

theorem tot_lt {f h : Nat → Nat} {n d p : Nat} (hl : ∀ p, p < n → f p ≤ h p) (hp : p < n)
    (hd : f p + d ≤ h p) : tot f n + d ≤ tot h n := by
  induction n with
  | zero => omega
  | succ n ih =>
    simp only [tot]
    by_cases hpn : p = n
    · subst hpn
      have := tot_le (f := f) (h := h) (n := p) fun q hq => hl q (by omega)
      omega
    · have := ih (fun q hq => hl q (by omega)) (by omega)
      have := hl n (by omega)
      omega

theorem tot_gt {f h : Nat → Nat} {n d p : Nat} (hl : ∀ q, q < n → q ≠ p → f q ≤ h q)
    (hd : f p ≤ h p + d) : tot f n ≤ tot h n + d := by
  induction n with
  | zero => simp [tot]
  | succ n ih =>
    simp only [tot]
    by_cases hpn : n = p
    · subst hpn
      have := tot_le (f := f) (h := h) (n := n) fun q hq => hl q (by omega) (by omega)
      omega
    · have := ih fun q hq => hl q (by omega)
      have := hl n (by omega) hpn
      omega

theorem tot_add (f h : Nat → Nat) (n : Nat) : tot (fun p => 10 * f p + h p) n = 10 * tot f n + tot h n := by
  induction n with
  | zero => rfl
  | succ n ih =>
    simp only [tot, ih]
    omega

theorem PI.g_le {p : Nat} {prog : Prog σ} {bg : List Snd} {a g : Nat}
    (h : PI S es st p prog bg a g) : g ≤ es.length := by
  obtain ⟨-, h2, ⟨rfl, -⟩ | ⟨⟨c, j, -, hj, -, hg, -⟩, -⟩⟩ := h
  · exact h2
  · have := (List.getElem?_eq_some_iff.mp hj).1
    omega

def rem (L : Nat) (a g : Nat → Nat) (p : Nat) : Nat := (L - a p) + (L - g p)

/-- Executions go forward. -/
theorem CI.steps (hS : Sep S) (hT : Traj es st) {N : Nat} (hN : ∀ c, S c → ∀ p ∈ c.tasks, p < N)
    {u v : Ideal σ} {a g : Nat → Nat} (h : CI S es st u a g) (hs : ISteps u v) :
    ∃ a' g', CI S es st v a' g' ∧ (∀ p, a p ≤ a' p ∧ g p ≤ g' p) ∧
      (v = u ∨ tot (rem es.length a' g') N < tot (rem es.length a g) N) := by
  induction hs with
  | refl => exact ⟨a, g, h, fun _ => ⟨Nat.le_refl _, Nat.le_refl _⟩, Or.inl rfl⟩
  | tail _ hs ih =>
    obtain ⟨a1, g1, h1, h2, h3⟩ := ih
    obtain ⟨p, a', g', k1, k2, k3, ⟨c, kc, kp⟩, k5⟩ := h1.step hS hT hs
    have hp := hN c kc p kp
    have le : ∀ q, a1 q ≤ update a1 p a' q ∧ g1 q ≤ update g1 p g' q := by
      intro q
      by_cases hq : q = p
      · subst hq
        simpa using ⟨k1, k2⟩
      · simp [hq]
    refine ⟨_, _, k5, fun q => ⟨Nat.le_trans (h2 q).1 (le q).1, Nat.le_trans (h2 q).2 (le q).2⟩, Or.inr ?_⟩
    have hb := k5.pi p
    simp only [update_self] at hb
    have b1 := hb.2.1
    have b2 := hb.g_le
    have : tot (rem es.length (update a1 p a') (update g1 p g')) N + 1 ≤ tot (rem es.length a1 g1) N := by
      refine tot_lt (fun q _ => ?_) hp ?_
      · have := le q
        simp only [rem]
        omega
      · simp only [rem, update_self]
        omega
    have h4 : tot (rem es.length a1 g1) N ≤ tot (rem es.length a g) N := by
      refine tot_le fun q _ => ?_
      have := h2 q
      simp only [rem]
      omega
    omega

/-! ### states of the backend -/

/-- Steps left for a thread. -/
def Pc.wt : Pc σ → Nat
  | .run _ => 1
  | .blocked _ => 2
  | .syncing _ _ _ => 2
  | _ => 0

def Proc.wt (P : Proc σ) : Nat := P.pc.wt + if P.bgBlk then 1 else 0

theorem Proc.wt_le (P : Proc σ) : P.wt ≤ 3 := by
  have : P.pc.wt ≤ 2 := by
    cases P.pc <;> simp [Pc.wt]
  simp only [Proc.wt]
  split <;> omega

/-- A receive was not given up, and is not about to be. -/
def Pc.fine (A : Nat) : Pc σ → Prop
  | .getting _ _ _ att _ => att + 1 < A
  | .failed _ _ => False
  | _ => True

structure LS (S : Comm → Prop) (es : List (Ev σ)) (st : Nat → Nat → σ) (A ol : Nat) (τ : Sys σ)
    (u : Ideal σ) (a g : Nat → Nat) : Prop where
  all : All S ol τ u
  brk : Brk τ
  ci : CI S es st u a g
  fine : ∀ p, (τ.proc p).pc.fine A

def mu (L N : Nat) (τ : Sys σ) (a g : Nat → Nat) : Nat :=
  tot (fun p => 10 * rem L a g p + (τ.proc p).wt) N

/-- One process moved. -/
theorem LS.move (hS : Sep S) (hT : Traj es st) {N : Nat} (hN : ∀ c, S c → ∀ p ∈ c.tasks, p < N)
    {A ol : Nat} {τ υ : Sys σ} {u : Ideal σ} {a g : Nat → Nat} (h : LS S es st A ol τ u a g)
    (hs : Steps A (fun _ => False) τ υ) {p : Nat} (hA : Alone τ υ p) (hp : p < N)
    (hf : (υ.proc p).pc.fine A)
    (hw : (υ.proc p).wt < (τ.proc p).wt ∨ (υ.proc p).pc.abs ≠ (τ.proc p).pc.abs ∨
      (υ.proc p).bg ≠ (τ.proc p).bg) :
    ∃ υ u' a' g', Steps A (fun _ => False) τ υ ∧ LS S es st A ol υ u' a' g' ∧
      mu es.length N υ a' g' < mu es.length N τ a g := by
  obtain ⟨u', hu, hall⟩ := h.all.steps hS (fun _ _ _ h => h) (fun _ _ h => h) hs
  obtain ⟨a', g', h1, h2, h3⟩ := h.ci.steps hS hT hN hu
  refine ⟨υ, u', a', g', hs, ⟨hall, h.brk.steps hs, h1, fun q => ?_⟩, ?_⟩
  · by_cases hq : q = p
    · subst hq
      exact hf
    · rw [(hA q hq).1]
      exact h.fine q
  · have hwq : ∀ q, q ≠ p → (υ.proc q).wt = (τ.proc q).wt := by
      intro q hq
      simp only [Proc.wt, (hA q hq).1, (hA q hq).2.2]
    have hr : ∀ q, rem es.length a' g' q ≤ rem es.length a g q := by
      intro q
      have := h2 q
      simp only [rem]
      omega
    simp only [mu, tot_add]
    rcases h3 with rfl | h3
    · have hlt : (υ.proc p).wt < (τ.proc p).wt := by
        rcases hw with hw | hw | hw
        · exact hw
        · exact absurd ((hall.inv.pc p).2.symm.trans (h.all.inv.pc p).2) hw
        · exact absurd ((hall.inv.bg p).symm.trans (h.all.inv.bg p)) hw
      have t1 := tot_le (n := N) fun q _ => hr q
      have t2 := tot_lt (f := fun q => (υ.proc q).wt) (h := fun q => (τ.proc q).wt) (n := N) (d := 1)
        (p := p) (fun q _ => by
          by_cases hq : q = p
          · subst hq
            exact Nat.le_of_lt hlt
          · exact Nat.le_of_eq (hwq q hq)) hp hlt
      omega
    · have t2 := tot_gt (f := fun q => (υ.proc q).wt) (h := fun q => (τ.proc q).wt) (n := N) (d := 3)
        (p := p) (fun q _ hq => Nat.le_of_eq (hwq q hq)) (by have := (υ.proc p).wt_le; omega)
      omega

/-- All processes at their next event. -/
theorem LS.norm (hT : Traj es st) {A ol : Nat} {τ : Sys σ} {u : Ideal σ} {a g : Nat → Nat}
    (h : LS S es st A ol τ u a g) (N : Nat) :
    ∃ a' g', LS S es st A ol τ u a' g' ∧ (∀ p, a p ≤ a' p ∧ g p ≤ g' p) ∧
      ∀ p, p < N → a' p = es.length ∨ ∃ e, es[a' p]? = some e ∧ e.on p := by
  induction N with
  | zero => exact ⟨a, g, h, fun _ => ⟨Nat.le_refl _, Nat.le_refl _⟩, fun p hp => by omega⟩
  | succ n ih =>
    obtain ⟨a1, g1, h1, h2, h3⟩ := ih
    obtain ⟨a', g', k1, k2, k3, k4⟩ := h1.ci.norm hT n
    refine ⟨_, _, ⟨h1.all, h1.brk, k3, h1.fine⟩, fun q => ?_, fun q hq => ?_⟩
    · by_cases hqn : q = n
      · subst hqn
        have := h2 q
        simp
        omega
      · simpa [hqn] using h2 q
    · by_cases hqn : q = n
      · subst hqn
        simpa using k4
      · simpa [hqn] using h3 q (by omega)

theorem exists_min (a : Nat → Nat) : ∀ N, 0 < N → ∃ p, p < N ∧ ∀ q, q < N → a p ≤ a q := by
  intro N
  induction N with
  | zero => intro h; omega
  | succ n ih =>
    intro _
    by_cases hn : n = 0
    · subst hn
      exact ⟨0, by omega, fun q hq => by rw [show q = 0 by omega]; exact Nat.le_refl _⟩
    · obtain ⟨p, hp, hm⟩ := ih (by omega)
      by_cases hle : a p ≤ a n
      · refine ⟨p, by omega, fun q hq => ?_⟩
        by_cases hqn : q = n
        · rw [hqn]; exact hle
        · exact hm q (by omega)
      · refine ⟨n, by omega, fun q hq => ?_⟩
        by_cases hqn : q = n
        · rw [hqn]; exact Nat.le_refl _
        · have := hm q (by omega)
          omega

/-- Sending in the background ends with `join`. -/
theorem PI.busy {p : Nat} {prog : Prog σ} {bg : List Snd} (hT : Traj es st) :
    ∀ (n a g : Nat), es.length - a ≤ n → PI S es st p prog bg a g → Busy S es p a g → ¬ Blk prog := by
  intro n
  induction n generalizing prog bg with
  | zero =>
    rintro a g hn h ⟨c, j, -, hj, ha, -⟩
    have := (List.getElem?_eq_some_iff.mp hj).1
    omega
  | succ n ih =>
    rintro a g hn ⟨h1, h2, h3⟩ ⟨c, j, hpc, hj, ha, hg, hw, hb⟩ hB
    by_cases haj : a = j
    · subst haj
      rw [h1, drop_at hj, proj, if_pos hpc.2] at hB
      cases hB
    · obtain ⟨X, b, upd, he, hX, hXc⟩ := hb a (Or.inl (Nat.le_refl _)) (by omega)
      have hlen := (List.getElem?_eq_some_iff.mp he).1
      have hbusy : Busy S es p (a + 1) g :=
        ⟨c, j, hpc, hj, by omega, hg, hw, fun i hi => hb i (by omega)⟩
      have hst := hT a _ he
      obtain ⟨P, Q, hE, hP, hQ⟩ := hX.ends
      simp only [Ev.step, hQ, Option.map_eq_some_iff] at hst
      obtain ⟨s', hf, hs⟩ := hst
      rw [h1, drop_at he, proj] at hB
      by_cases hd : X.dst = some p
      · rw [if_pos hd] at hB
        have hQp : Q = p := by
          rw [hQ] at hd
          exact Option.some.inj hd
        subst hQp
        cases hB with
        | recv hk =>
          have := hk b
          simp only [hf] at this
          refine ih (a + 1) g (by omega) ⟨?_, hlen, Or.inr ⟨hbusy, rfl⟩⟩ hbusy this
          rw [← hs, update_self]
      · rw [if_neg hd] at hB
        refine ih (a + 1) g (by omega) ⟨?_, hlen, Or.inr ⟨hbusy, rfl⟩⟩ hbusy hB
        rw [← hs, update_of_ne]
        rintro rfl
        exact hd hQ

theorem Snd.OK.peer {p : Nat} {m : Snd} (h : m.OK S p) : ∃ q, peerOf m.c m.rank m.dst = some q := by
  obtain ⟨_, _, h3, h4⟩ := h
  exact ⟨m.c.tasks[m.dst], by simp [peerOf, h4, h3]⟩

theorem Rcv.OK.peer {p : Nat} {m : Rcv} (h : m.OK S p) : ∃ q, peerOf m.c m.rank m.src = some q := by
  obtain ⟨_, _, h3, h4⟩ := h
  exact ⟨m.c.tasks[m.src], by simp [peerOf, h4, h3]⟩

/-- All messages of a process are received which is not after any other. -/
theorem LS.received {N : Nat} (hN : ∀ c, S c → ∀ p ∈ c.tasks, p < N)
    {A ol : Nat} {τ : Sys σ} {u : Ideal σ} {a g : Nat → Nat} (h : LS S es st A ol τ u a g) {p : Nat}
    (hm : ∀ q, q < N → g p ≤ a q) : ∀ X Q, Ends S X p Q → u.rd X = (u.sent X).length := by
  intro X Q hX
  have hQ := hN _ hX.mem Q (List.mem_of_getElem? hX.snd)
  have h1 := h.ci.sent X p Q hX
  have h2 := h.ci.rd X p Q hX
  have h3 := ms_le (es := es) (st := st) X (hm Q hQ)
  have h4 : u.rd X ≤ (u.sent X).length := by
    by_contra hc
    have := (h.all.inv.inb X p Q (u.sent X).length hX).1 (by omega)
    have := (h.all.inv.inb X p Q (u.sent X).length hX).2.1 this
    omega
  have h5 : (u.sent X).length = (ms es st (g p) X).length := by rw [h1]
  omega

section
variable (hS : Sep S) (hT : Traj es st) {N : Nat} (hN : ∀ c, S c → ∀ p ∈ c.tasks, p < N)
  {A ol : Nat} {τ : Sys σ} {u : Ideal σ} {a g : Nat → Nat}

/-- There is a way to go on. -/
def Moves (S : Comm → Prop) (es : List (Ev σ)) (st : Nat → Nat → σ) (N A ol : Nat) (τ : Sys σ)
    (a g : Nat → Nat) : Prop :=
  ∃ υ u' a' g', Steps A (fun _ => False) τ υ ∧ LS S es st A ol υ u' a' g' ∧
    mu es.length N υ a' g' < mu es.length N τ a g

include hS hT hN

/-- A process waiting for a send to be done. -/
theorem LS.waits (h : LS S es st A ol τ u a g) {p : Nat} (hp : p < N) (hm : ∀ q, q < N → g p ≤ a q)
    (hw : (∃ k, (τ.proc p).pc = .blocked k) ∨ ∃ q hd k, (τ.proc p).pc = .syncing q hd k) :
    Moves S es st N A ol τ a g := by
  rcases hw with ⟨k, hk⟩ | ⟨q, hd, k, hk⟩
  · obtain ⟨υ, h1, h2, h3, h4⟩ := h.all.unblock (A := A) hk (h.received hN hm)
    refine h.move hS hT hN h1 h4 hp (by rw [h2]; trivial) (Or.inl ?_)
    simp only [Proc.wt, h2, hk, h3, Pc.wt]
    omega
  · obtain ⟨υ, h1, h2, h3, h4⟩ := sync_done (A := A) hS h.all.inv hk
    refine h.move hS hT hN h1 h4 hp (by rw [h2]; trivial) (Or.inl ?_)
    simp only [Proc.wt, h2, hk, h3, Pc.wt]
    omega

/-- A process about to send. -/
theorem LS.sends (h : LS S es st A ol τ u a g) {p : Nat} (hp : p < N) (hm : ∀ q, q < N → g p ≤ a q)
    {m : Snd} {k : Prog σ} (hk : u.prog p = .send m k ∨ u.prog p = .ssend m k) :
    Moves S es st N A ol τ a g := by
  have habs := (h.all.inv.pc p).2
  have hu := h.all.inv.use p
  cases hpc : (τ.proc p).pc with
  | blocked k' => exact h.waits hS hT hN hp hm (Or.inl ⟨k', hpc⟩)
  | syncing q hd k' => exact h.waits hS hT hN hp hm (Or.inr ⟨q, hd, k', hpc⟩)
  | getting m' q hd att k' =>
    rw [habs, hpc] at hk
    rcases hk with hk | hk <;> cases hk
  | failed m' k' =>
    rw [habs, hpc] at hk
    rcases hk with hk | hk <;> cases hk
  | dead =>
    rw [habs, hpc] at hk
    rcases hk with hk | hk <;> cases hk
  | run k' =>
    rw [hpc] at habs
    change u.prog p = k' at habs
    rw [habs] at hk
    rcases hk with rfl | rfl
    · rw [habs] at hu
      have hq : ∃ q, peerOf m.c m.rank m.dst = some q := by
        cases hu with
        | send h1 h2 => exact h1.peer
      obtain ⟨q, hq⟩ := hq
      refine h.move hS hT hN (Step.push (A := A) (L := fun _ => False) τ p q m k hpc hq).steps (p := p)
        (fun q hq => by simp [hq]) hp (by simp [Pc.fine]) (Or.inr (Or.inl ?_))
      simp only [update_self, hpc]
      exact send_ne m k
    · rw [habs] at hu
      have hq : ∃ q, peerOf m.c m.rank m.dst = some q := by
        cases hu with
        | ssend h1 h2 => exact h1.peer
      obtain ⟨q, hq⟩ := hq
      refine h.move hS hT hN (Step.sync (A := A) (L := fun _ => False) τ p q m k hpc hq).steps (p := p)
        (fun q hq => by simp [Sys.setP, hq]) hp (by simp [Sys.setP, Pc.fine]) (Or.inr (Or.inl ?_))
      simp only [Sys.setP, update_self, hpc]
      exact ssend_ne m k

/-- A process with something to be sent in the background. -/
theorem LS.background (h : LS S es st A ol τ u a g) {p : Nat} (hp : p < N)
    (hm : ∀ q, q < N → g p ≤ a q) (hB : Busy S es p (a p) (g p))
    (hb : (τ.proc p).bgBlk = true ∨ u.bg p ≠ []) : Moves S es st N A ol τ a g := by
  have hnb := (h.ci.pi p).busy hT _ _ _ (Nat.le_refl _) hB
  have hbrk : (∀ k, (τ.proc p).pc ≠ .blocked k) ∧ ∀ q h k, (τ.proc p).pc ≠ .syncing q h k := by
    rcases h.brk p with ⟨-, -, h3⟩ | ⟨-, h1⟩
    · rw [← (h.all.inv.pc p).2] at h3
      exact absurd h3 hnb
    · exact h1
  by_cases hblk : (τ.proc p).bgBlk = true
  · obtain ⟨υ, h1, h2, h3, h4⟩ := h.all.bgUnblock (A := A) hblk hbrk.2 (h.received hN hm)
    refine h.move hS hT hN h1 h4 hp (by rw [h3]; exact h.fine p) (Or.inl ?_)
    simp [Proc.wt, h2, h3, hblk]
  · have hb : u.bg p ≠ [] := by
      rcases hb with hb | hb
      · exact absurd hb hblk
      · exact hb
    have hblk : (τ.proc p).bgBlk = false := by simpa using hblk
    rw [h.all.inv.bg p] at hb
    obtain ⟨m, l, hl⟩ := List.exists_cons_of_ne_nil hb
    obtain ⟨q, hq⟩ := (h.all.inv.useB p m (by rw [h.all.inv.bg p, hl]; simp)).peer
    refine h.move hS hT hN (Step.bgPush (A := A) (L := fun _ => False) τ p q m l hl hblk hq).steps (p := p)
      (fun q hq => by simp [hq]) hp ?_ (Or.inr (Or.inr ?_))
    · simpa [Proc.put] using h.fine p
    · simp only [update_self, hl]
      intro e
      have := congrArg List.length e
      simp at this

theorem LS.progress (hA : 2 ≤ A) (h : LS S es st A ol τ u a g)
    (hn : ∀ p, p < N → a p = es.length ∨ ∃ e, es[a p]? = some e ∧ e.on p)
    (hd : ∃ p, p < N ∧ (τ.proc p).pc ≠ .run (.ret (st es.length p))) :
    Moves S es st N A ol τ a g := by
  obtain ⟨p0, hp0, hd⟩ := hd
  obtain ⟨p, hp, hmin⟩ := exists_min a N (by omega)
  have hview : ∀ q, q < N → View S es st q (u.prog q) (u.bg q) (a q) (g q) :=
    fun q hq => (h.ci.pi q).view hS hT (hn q hq)
  have habs := (h.all.inv.pc p).2
  have hu := h.all.inv.use p
  have hfine := h.fine p
  cases hview p hp with
  | done hl hprog hg hbg =>
    -- all are at the end
    have hall : ∀ q, q < N → a q = es.length := by
      intro q hq
      have := hmin q hq
      have := (h.ci.pi q).2.1
      omega
    have h0 : u.prog p0 = .ret (st es.length p0) ∧ g p0 = es.length := by
      have ha := hall p0 hp0
      cases hview p0 hp0 with
      | done hl hprog hg hbg => exact ⟨by rw [hprog, ha], by omega⟩
      | send X Q sy b k hX hm' hg hb hp' hk => have := hk.2.1; omega
      | recv X P b k g' hX hm' hp' hg hk hs => have := hk.2.1; omega
      | fork ms k hc hm' hg hb hp' hk => have := hk.2.1; omega
      | join k hm' hg hp' hB hb hk =>
        obtain ⟨c, j, -, hj, haj, -⟩ := hB
        have := (List.getElem?_eq_some_iff.mp hj).1
        omega
    have habs0 := (h.all.inv.pc p0).2
    have hm0 : ∀ q, q < N → g p0 ≤ a q := fun q hq => by rw [hall q hq, h0.2]; exact Nat.le_refl _
    rw [h0.1] at habs0
    cases hpc : (τ.proc p0).pc with
    | blocked k' => exact h.waits hS hT hN hp0 hm0 (Or.inl ⟨k', hpc⟩)
    | syncing q hd k' => exact h.waits hS hT hN hp0 hm0 (Or.inr ⟨q, hd, k', hpc⟩)
    | getting m' q hd att k' => rw [hpc] at habs0; cases habs0
    | failed m' k' => rw [hpc] at habs0; cases habs0
    | dead => rw [hpc] at habs0; cases habs0
    | run k' =>
      rw [hpc] at habs0
      change _ = k' at habs0
      rw [← habs0] at hpc
      exact absurd hpc hd
  | send X Q sy b k hX hm' hg hb hp' hk =>
    refine h.sends hS hT hN hp (m := ⟨X.c, X.s, X.ty, X.r, X.tag, b⟩) (k := k)
      (fun q hq => by rw [hg]; exact hmin q hq) ?_
    rw [hp']
    cases sy <;> simp
  | recv X P b k g' hX hm' hp' hg hk hs =>
    have hwait : ((∃ k, (τ.proc p).pc = .blocked k) ∨ ∃ q hd k, (τ.proc p).pc = .syncing q hd k) →
        Moves S es st N A ol τ a g := by
      intro hw
      rcases hg with ⟨hg, -⟩ | ⟨hB, -, -⟩
      · exact h.waits hS hT hN hp (fun q hq => by rw [hg]; exact hmin q hq) hw
      · have hnb := (h.ci.pi p).busy hT _ _ _ (Nat.le_refl _) hB
        rcases h.brk p with ⟨-, -, h3⟩ | ⟨-, h1, h2⟩
        · rw [← habs] at h3
          exact absurd h3 hnb
        · rcases hw with ⟨k, hw⟩ | ⟨q, hd, k, hw⟩
          · exact absurd hw (h1 _)
          · exact absurd hw (h2 _ _ _)
    cases hpc : (τ.proc p).pc with
    | blocked k' => exact hwait (Or.inl ⟨k', hpc⟩)
    | syncing q hd k' => exact hwait (Or.inr ⟨q, hd, k', hpc⟩)
    | dead => exact absurd hpc (h.all.inv.pc p).1
    | failed m' k' => rw [hpc] at hfine; exact hfine.elim
    | run k' =>
      rw [hpc] at habs
      change u.prog p = k' at habs
      rw [hp'] at habs
      subst habs
      rw [hp'] at hu
      have hq : ∃ q, peerOf X.c X.r X.s = some q := by
        cases hu with
        | recv h1 h2 => exact h1.peer
      obtain ⟨q, hq⟩ := hq
      refine h.move hS hT hN (Step.ask (A := A) (L := fun _ => False) τ p q _ k hpc hq).steps (p := p)
        (fun q hq => by simp [Sys.setP, hq, Proc.ask]) hp (by simp [Sys.setP, Pc.fine]; omega) (Or.inl ?_)
      simp [Sys.setP, Proc.ask, Proc.wt, Pc.wt, hpc]
    | getting m' q hd att k' =>
      rw [hpc] at habs hfine
      have hmk : m' = ⟨X.c, X.r, X.ty, X.s, X.tag⟩ ∧ k' = k := by
        rw [hp'] at habs
        simp only [Pc.abs, Prog.recv.injEq] at habs
        exact ⟨habs.1.symm, habs.2.symm⟩
      obtain ⟨rfl, rfl⟩ := hmk
      have hchan : Rcv.chan ⟨X.c, X.r, X.ty, X.s, X.tag⟩ = X := rfl
      have hP := hN _ hX.mem P (List.mem_of_getElem? hX.fst)
      by_cases hgP : a p < g P
      · -- the message was sent
        have hb : (u.sent X)[u.rd X]? = some b := by
          rw [h.ci.sent X P p hX, h.ci.rd X P p hX]
          obtain ⟨l, hl⟩ := ms_mono (es := es) (st := st) X (show a p + 1 ≤ g P from hgP)
          rw [hl, ms_emit hm', if_pos rfl, List.append_assoc]
          simp
        obtain ⟨υ, h1, h2, h3⟩ := h.all.dlv.get hS h.all.inv hpc hfine (by rw [hchan]; exact hb)
        refine h.move hS hT hN h1 h3 hp (by rw [h2]; trivial) (Or.inr (Or.inl ?_))
        rw [h2, hpc]
        exact recv_ne _ _ _
      · -- the sender is at this event
        have hmP : ∀ q, q < N → g P ≤ a q := fun q hq => by
          have := hmin q hq
          omega
        have hminP := hmin P hP
        rcases (h.ci.pi P).2.2 with ⟨hga, -, -⟩ | ⟨hB, hbg⟩
        · have haP : a P = a p := by omega
          cases hview P hP with
          | done hl hprog hg hbg =>
            have := hk.2.1
            omega
          | send X' Q sy b' k'' hX' hm'' hg hb hp'' hk' =>
            refine h.sends hS hT hN hP (m := ⟨X'.c, X'.s, X'.ty, X'.r, X'.tag, b'⟩) (k := k'') hmP ?_
            rw [hp'']
            cases sy <;> simp
          | recv X' P' b' k'' g'' hX' hm'' hp'' hg hk' hs' =>
            rw [haP, hm'] at hm''
            simp only [Option.some.injEq, Prod.mk.injEq] at hm''
            obtain ⟨rfl, -⟩ := hm''
            exact absurd (hX.det hX').2.symm (hX.proc_ne hS)
          | fork ms k'' hc hm'' hg hb hp'' hk' =>
            rw [haP, hm'] at hm''
            cases hm''
          | join k'' hm'' hg hp'' hB hb hk' =>
            rw [haP, hm'] at hm''
            cases hm''
        · refine h.background hS hT hN hP hmP hB (Or.inr ?_)
          intro hnil
          rw [hnil] at hbg
          obtain ⟨c, j, hpc', hj, haj, hgj, hw, hbb⟩ := hB
          have hlt : a p < j := by
            refine Nat.lt_of_le_of_ne (by omega) fun e => ?_
            rw [e] at hm'
            simp [msgAt, hj, Ev.msg] at hm'
          have e1 := bsends_nil (S := S) (st := st) (p := P) (j := a p) _ (g P) (Nat.le_refl _) (by omega)
            (fun i hi hi' => by
              obtain ⟨Y, b', upd, k1, -⟩ := hbb i (Or.inr hi) (by omega)
              exact ⟨Y, b', upd, k1⟩) hbg.symm X p hX
          have e2 := bsends_nil (S := S) (st := st) (p := P) (j := a p + 1) _ (g P) (Nat.le_refl _)
            (by omega)
            (fun i hi hi' => by
              obtain ⟨Y, b', upd, k1, -⟩ := hbb i (Or.inr hi) (by omega)
              exact ⟨Y, b', upd, k1⟩) hbg.symm X p hX
          rw [ms_emit hm', if_pos rfl, ← e1] at e2
          have := congrArg List.length e2
          simp at this
  | fork ms k hc hm' hg hb hp' hk =>
    have hm0 : ∀ q, q < N → g p ≤ a q := fun q hq => by rw [hg]; exact hmin q hq
    cases hpc : (τ.proc p).pc with
    | blocked k' => exact h.waits hS hT hN hp hm0 (Or.inl ⟨k', hpc⟩)
    | syncing q hd k' => exact h.waits hS hT hN hp hm0 (Or.inr ⟨q, hd, k', hpc⟩)
    | getting m' q hd att k' => rw [hpc, hp'] at habs; cases habs
    | failed m' k' => rw [hpc, hp'] at habs; cases habs
    | dead => rw [hpc, hp'] at habs; cases habs
    | run k' =>
      rw [hpc, hp'] at habs
      change _ = k' at habs
      subst habs
      have hblk : (τ.proc p).bgBlk = false := by
        rcases h.brk p with ⟨-, h2, -⟩ | ⟨h1, -⟩
        · exact h2
        · rw [hpc] at h1
          cases h1
      refine h.move hS hT hN (Step.fork (A := A) (L := fun _ => False) τ p ms k hpc
        (by rw [← h.all.inv.bg p, hb]) hblk).steps (p := p)
        (fun q hq => by simp [Sys.setP, hq]) hp (by simp [Sys.setP, Pc.fine]) (Or.inr (Or.inl ?_))
      simp only [Sys.setP, update_self, hpc]
      exact fork_ne ms k
  | join k hm' hg hp' hB hb hk =>
    have hm0 : ∀ q, q < N → g p ≤ a q := fun q hq => Nat.le_trans hg (hmin q hq)
    by_cases hbk : (τ.proc p).bgBlk = true ∨ u.bg p ≠ []
    · exact h.background hS hT hN hp hm0 hB hbk
    · have h1 : (τ.proc p).bgBlk = false := by
        cases hc : (τ.proc p).bgBlk with
        | false => rfl
        | true => exact absurd (Or.inl hc) hbk
      have h2 : u.bg p = [] := by
        by_contra hc
        exact hbk (Or.inr hc)
      cases hpc : (τ.proc p).pc with
      | getting m' q hd att k' => rw [hpc, hp'] at habs; cases habs
      | failed m' k' => rw [hpc, hp'] at habs; cases habs
      | dead => rw [hpc, hp'] at habs; cases habs
      | blocked k' =>
        rcases h.brk p with ⟨-, -, h3⟩ | ⟨-, h4, -⟩
        · rw [← habs, hp'] at h3
          cases h3
        · exact absurd hpc (h4 _)
      | syncing q hd k' =>
        rcases h.brk p with ⟨-, -, h3⟩ | ⟨-, -, h4⟩
        · rw [← habs, hp'] at h3
          cases h3
        · exact absurd hpc (h4 _ _ _)
      | run k' =>
        rw [hpc, hp'] at habs
        change _ = k' at habs
        subst habs
        refine h.move hS hT hN (Step.join (A := A) (L := fun _ => False) τ p k hpc
          (by rw [← h.all.inv.bg p, h2]) h1).steps (p := p)
          (fun q hq => by simp [Sys.setP, hq]) hp (by simp [Sys.setP, Pc.fine]) (Or.inr (Or.inl ?_))
        simp only [Sys.setP, update_self, hpc]
        exact join_ne k

/-- All processes can get to the end. -/
theorem LS.finish (hA : 2 ≤ A) : ∀ (n : Nat) (τ : Sys σ) (u : Ideal σ) (a g : Nat → Nat),
    mu es.length N τ a g ≤ n → LS S es st A ol τ u a g →
    ∃ υ, Steps A (fun _ => False) τ υ ∧ ∀ p, p < N → (υ.proc p).pc = .run (.ret (st es.length p)) := by
  intro n
  induction n with
  | zero =>
    intro τ u a g hn h
    obtain ⟨a1, g1, h1, h2, h3⟩ := h.norm hT N
    by_cases hd : ∃ p, p < N ∧ (τ.proc p).pc ≠ .run (.ret (st es.length p))
    · obtain ⟨υ, u', a', g', -, -, k3⟩ := h1.progress hS hT hN hA h3 hd
      have : mu es.length N τ a1 g1 ≤ mu es.length N τ a g := by
        refine tot_le fun q _ => ?_
        have := h2 q
        simp only [rem]
        omega
      omega
    · refine ⟨τ, .refl, fun p hp => ?_⟩
      by_contra hc
      exact hd ⟨p, hp, hc⟩
  | succ n ih =>
    intro τ u a g hn h
    obtain ⟨a1, g1, h1, h2, h3⟩ := h.norm hT N
    by_cases hd : ∃ p, p < N ∧ (τ.proc p).pc ≠ .run (.ret (st es.length p))
    · obtain ⟨υ, u', a', g', k1, k2, k3⟩ := h1.progress hS hT hN hA h3 hd
      have : mu es.length N τ a1 g1 ≤ mu es.length N τ a g := by
        refine tot_le fun q _ => ?_
        have := h2 q
        simp only [rem]
        omega
      obtain ⟨ω, k4, k5⟩ := ih υ u' a' g' (by omega) k2
      exact ⟨ω, k1.trans k4, k5⟩
    · refine ⟨τ, .refl, fun p hp => ?_⟩
      by_contra hc
      exact hd ⟨p, hp, hc⟩

end

end Laik.Mm
