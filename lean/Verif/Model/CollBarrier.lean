import Verif.Model.CollMain
/-!
# Barrier
-/

namespace Laik.Mm

open Function

variable {S : Comm → Prop} {c : Comm}

/-- Message of rank `r` to rank 0. -/
def pingEv (c : Comm) (r : Nat) : Ev PS := .tr ⟨c, tBarrier, r, 0, 0⟩ false (fun _ => []) fun s _ => some s
/-- Answer of rank 0. -/
def pongEv (c : Comm) (r : Nat) : Ev PS := .tr ⟨c, tBarrier, 0, r, 0⟩ true (fun _ => []) fun s _ => some s

theorem barrierE_eq : barrierE c =
    (others c.tasks.length 0).map (pingEv c) ++ (others c.tasks.length 0).map (pongEv c) := rfl

/-- What is left of a barrier when all pings of the others came. -/
theorem leaving (hn : c.tasks.Nodup) {q rank : Nat} (hq : c.tasks[rank]? = some q) (x : PS) :
    ∀ l : List (Ev PS), (∀ e ∈ l, (∃ r, r < c.tasks.length ∧ e = pongEv c r) ∨
      (rank ≠ 0 ∧ ∃ r, r ≠ rank ∧ e = pingEv c r)) → Leaving c tBarrier x (proj q l x) := by
  intro l
  induction l with
  | nil => exact fun _ => .done
  | cons e l ih =>
    intro h
    have h1 := ih fun x hx => h x (by simp [hx])
    rcases h e (by simp) with ⟨r, hr, rfl⟩ | ⟨h0, r, hr, rfl⟩
    · simp only [pongEv, proj]
      by_cases h0 : Chan.src ⟨c, tBarrier, 0, r, 0⟩ = some q
      · rw [if_pos h0, if_pos trivial]
        exact .pong ⟨rfl, rfl, rfl⟩ h1
      · rw [if_neg h0]
        by_cases h2 : Chan.dst ⟨c, tBarrier, 0, r, 0⟩ = some q
        · rw [if_pos h2]
          exact .wait ⟨rfl, rfl, rfl⟩ fun _ => h1
        · rw [if_neg h2]
          exact h1
    · have e1 : ¬ Chan.src ⟨c, tBarrier, r, 0, 0⟩ = some q := fun e => hr ((rank_iff hn hq).mp e)
      have e2 : ¬ Chan.dst ⟨c, tBarrier, r, 0, 0⟩ = some q := fun e => h0 ((rank_iff hn hq).mp e).symm
      simp only [pingEv, proj]
      rw [if_neg e1, if_neg e2]
      exact h1

/-- Past the events before, nothing is sent in the background. -/
theorem PI.past {E : List (Ev PS)} {st : Nat → Nat → PS} {p : Nat} {prog : Prog PS} {bg : List Snd}
    {a g : Nat} (h : PI S (E ++ barrierE c) st p prog bg a g) (hg : E.length < g) : a = g := by
  rcases h.2.2 with ⟨h1, -⟩ | ⟨⟨d, j, -, hj, -, hgj, -⟩, -⟩
  · exact h1.symm
  · rw [List.getElem?_append_right (by omega)] at hj
    have := List.mem_of_getElem? hj
    rw [barrierE_eq] at this
    simp [pingEv, pongEv] at this

theorem CI.barrier (hS : Sep S) {E : List (Ev PS)} {st : Nat → Nat → PS} (hc : S c)
    (hT : Traj (E ++ barrierE c) st) {u : Ideal PS} {a g : Nat → Nat}
    (h : CI S (E ++ barrierE c) st u a g) (hrd : ∀ X, u.rd X ≤ (u.sent X).length)
    {p : Nat} (hp : p ∈ c.tasks) {x : PS} (hx : u.prog p = .ret x) {q : Nat} (hq : q ∈ c.tasks) :
    Leaving c tBarrier (st E.length q) (u.prog q) := by
  have hn := hS.nodup c hc
  obtain ⟨n, hne⟩ : ∃ n, n = c.tasks.length := ⟨_, rfl⟩
  obtain ⟨rs, hrs⟩ : ∃ rs, rs = others c.tasks.length 0 := ⟨_, rfl⟩
  have hrd' : rs.Nodup := hrs ▸ others_nodup _ _
  have hmem : ∀ r, r ∈ rs ↔ r < c.tasks.length ∧ r ≠ 0 := fun r => hrs ▸ mem_others
  have hpos : 0 < c.tasks.length := List.length_pos_of_mem hp
  have hL : (E ++ barrierE c).length = E.length + (rs.length + rs.length) := by
    simp [barrierE_eq, hrs]
  have hping : ∀ i r, rs[i]? = some r → (E ++ barrierE c)[E.length + i]? = some (pingEv c r) := by
    intro i r hi
    have := (List.getElem?_eq_some_iff.mp hi).1
    rw [List.getElem?_append_right (by omega), barrierE_eq, ← hrs, List.getElem?_append_left (by simp; omega)]
    simp [hi]
  have hpong : ∀ i r, rs[i]? = some r →
      (E ++ barrierE c)[E.length + rs.length + i]? = some (pongEv c r) := by
    intro i r hi
    rw [List.getElem?_append_right (by omega), barrierE_eq, ← hrs,
      List.getElem?_append_right (by simp; omega)]
    have : E.length + rs.length + i - E.length - (rs.map (pingEv c)).length = i := by simp; omega
    rw [this]
    simp [hi]
  have hE1 : ∀ r, r ∈ rs → Ends S ⟨c, tBarrier, r, 0, 0⟩ (c.proc r) (c.proc 0) := fun r hr =>
    ⟨hc, Comm.getElem?_proc ((hmem r).mp hr).1, Comm.getElem?_proc hpos, ((hmem r).mp hr).2⟩
  have hE2 : ∀ r, r ∈ rs → Ends S ⟨c, tBarrier, 0, r, 0⟩ (c.proc 0) (c.proc r) := fun r hr =>
    ⟨hc, Comm.getElem?_proc hpos, Comm.getElem?_proc ((hmem r).mp hr).1, fun e => ((hmem r).mp hr).2 e.symm⟩
  -- at the end
  obtain ⟨a', g', -, -, h1, h2⟩ := h.norm hT p
  obtain ⟨A, hA⟩ : ∃ A, A = update a p a' := ⟨_, rfl⟩
  obtain ⟨G, hG⟩ : ∃ G, G = update g p g' := ⟨_, rfl⟩
  have hAp : A p = (E ++ barrierE c).length := by
    have hv := (h1.pi p).view hS hT (by simpa using h2)
    cases hv with
    | done hl => rw [hA]; exact hl
    | send X Q sy b k hX hm hg hb hp =>
      rw [hx] at hp
      cases sy <;> simp at hp
    | recv X P b k g' hX hm hp => rw [hx] at hp; simp at hp
    | fork ms k hc hm hg hb hp => rw [hx] at hp; simp at hp
    | join k hm hg hp => rw [hx] at hp; simp at hp
  rw [← hA, ← hG] at h1
  -- rank 0 got all messages
  have h0 : E.length + rs.length ≤ A (c.proc 0) := by
    by_cases e : p = c.proc 0
    · rw [← e, hAp, hL]; omega
    · have hr := Comm.proc_idxOf hp
      have hm : c.tasks.idxOf p ∈ rs := (hmem _).mpr ⟨List.idxOf_lt_length_of_mem hp, fun e' => e (by
        rw [← hr, e'])⟩
      obtain ⟨i, hi, hi'⟩ := List.getElem_of_mem hm
      have h3 := h1.causal hrd (hpong i _ (by rw [List.getElem?_eq_getElem hi, hi'])) (hE2 _ hm)
        (by rw [hr, hAp, hL]; omega)
      have h4 := (h1.pi (c.proc 0)).past (by omega)
      omega
  -- where `q` is
  have hprog := (h1.pi q).1
  have hr := Comm.proc_idxOf hq
  have hqi : c.tasks[c.tasks.idxOf q]? = some q := by
    have := Comm.getElem?_proc (c := c) (List.idxOf_lt_length_of_mem hq)
    rw [hr] at this
    exact this
  have hpast : E.length ≤ A q ∧ ∀ e ∈ (E ++ barrierE c).drop (A q),
      (∃ r, r < c.tasks.length ∧ e = pongEv c r) ∨
      (c.tasks.idxOf q ≠ 0 ∧ ∃ r, r ≠ c.tasks.idxOf q ∧ e = pingEv c r) := by
    have hev : ∀ k, E.length ≤ k → ∀ e, (E ++ barrierE c)[k]? = some e →
        (k < E.length + rs.length ∧ ∃ r, rs[k - E.length]? = some r ∧ e = pingEv c r) ∨
          ∃ r, r < c.tasks.length ∧ e = pongEv c r := by
      intro k hk e he
      rw [List.getElem?_append_right hk, barrierE_eq, ← hrs] at he
      by_cases hlt : k < E.length + rs.length
      · rw [List.getElem?_append_left (by simp; omega), List.getElem?_map, Option.map_eq_some_iff] at he
        obtain ⟨r, h5, rfl⟩ := he
        exact Or.inl ⟨hlt, r, h5, rfl⟩
      · rw [List.getElem?_append_right (by simp; omega), List.getElem?_map, Option.map_eq_some_iff] at he
        obtain ⟨r, h5, rfl⟩ := he
        exact Or.inr ⟨r, ((hmem r).mp (List.mem_of_getElem? h5)).1, rfl⟩
    have hdrop : ∀ e ∈ (E ++ barrierE c).drop (A q), ∃ k, A q ≤ k ∧ (E ++ barrierE c)[k]? = some e := by
      intro e he
      obtain ⟨k, hk⟩ := List.mem_iff_getElem?.mp he
      rw [List.getElem?_drop] at hk
      exact ⟨_, Nat.le_add_right _ _, hk⟩
    by_cases e0 : c.tasks.idxOf q = 0
    · have e1 : q = c.proc 0 := by rw [← hr, e0]
      refine ⟨by rw [e1]; omega, fun e he => ?_⟩
      obtain ⟨k, h5, h6⟩ := hdrop e he
      rw [e1] at h5
      rcases hev k (by omega) e h6 with ⟨h7, -⟩ | h7
      · omega
      · exact Or.inl h7
    · have hm : c.tasks.idxOf q ∈ rs := (hmem _).mpr ⟨List.idxOf_lt_length_of_mem hq, e0⟩
      obtain ⟨i, hi, hi'⟩ := List.getElem_of_mem hm
      have h3 := h1.causal hrd (hping i _ (by rw [List.getElem?_eq_getElem hi, hi'])) (hE1 _ hm) (by omega)
      rw [hr] at h3
      have h4 := (h1.pi q).past (by omega)
      refine ⟨by omega, fun e he => ?_⟩
      obtain ⟨k, h5, h6⟩ := hdrop e he
      rcases hev k (by omega) e h6 with ⟨h7, r, h8, rfl⟩ | h7
      · refine Or.inr ⟨e0, r, fun e => ?_, rfl⟩
        obtain ⟨h9, h10⟩ := List.getElem?_eq_some_iff.mp h8
        have := (List.Nodup.getElem_inj_iff hrd').mp (h10.trans (e.trans hi'.symm))
        omega
      · exact Or.inl h7
  -- states do not change
  have hst : ∀ i, E.length + i ≤ (E ++ barrierE c).length → st (E.length + i) = st E.length := by
    intro i
    induction i with
    | zero => exact fun _ => rfl
    | succ i ih =>
      intro hi
      rw [← ih (by omega)]
      have he : (E ++ barrierE c)[E.length + i]? = some (E ++ barrierE c)[E.length + i] :=
        List.getElem?_eq_getElem (by omega)
      have h3 := hT _ _ he
      have h4 : (E ++ barrierE c)[E.length + i] ∈ barrierE c := by
        refine List.mem_of_getElem? (i := i) ?_
        rw [← he, List.getElem?_append_right (by omega)]
        congr 1
        omega
      generalize (E ++ barrierE c)[E.length + i] = e at h3 h4
      rw [barrierE_eq, ← hrs] at h4
      have h0' := Comm.getElem?_proc hpos
      rcases List.mem_append.mp h4 with h4 | h4 <;> obtain ⟨r, hr, rfl⟩ := List.mem_map.mp h4 <;>
        · have h5 := Comm.getElem?_proc ((hmem r).mp hr).1
          simp only [pingEv, pongEv, Ev.step, Chan.src, Chan.dst, h0', h5, Option.map_some, update_eq_self,
            Option.some.injEq] at h3
          exact h3.symm
  rw [hprog]
  have h5 := hst (A q - E.length) (by have := (h1.pi q).2.1; omega)
  rw [Nat.add_sub_cancel' hpast.1] at h5
  rw [h5]
  exact leaving hn hqi _ _ hpast.2

end Laik.Mm
