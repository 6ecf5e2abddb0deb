import Verif.Model.TcpResizeMaster
/-!
# Other processes in a resize
-/

namespace Laik.Rsz

theorem rms_bound {w : World} {reqs : List Req} (hv : w.Valid reqs) {l : Nat}
    (h : w.role reqs l = .leave) : 0 < l ∧ l < w.n ∧ w.alive l = true :=
  hv.2.1 l ((mem_leave hv).1 h)

theorem fresh_bound {w : World} {reqs : List Req} {l : Nat} (h : w.role reqs l = .fresh) :
    w.n ≤ l ∧ l < w.n + joins reqs := by
  by_cases h1 : w.n ≤ l
  · refine ⟨h1, ?_⟩
    by_cases h2 : w.n + joins reqs ≤ l
    · unfold World.role at h; rw [if_pos h2] at h; cases h
    · omega
  · rw [role_old (by omega)] at h
    by_cases h3 : w.alive l = true
    · rw [if_pos h3] at h
      by_cases h4 : l ∈ rms reqs
      · rw [if_pos h4] at h; cases h
      · rw [if_neg h4] at h; cases h
    · rw [if_neg h3] at h; cases h

/-- LIDs of newcomers other than `t`. -/
def frs (role : Nat → Role) (n t : Nat) : List Nat :=
  (List.range n).filter fun l => role l = .fresh ∧ l ≠ t
/-- LIDs of leaving processes. -/
def lvs (role : Nat → Role) (n : Nat) : List Nat := (List.range n).filter fun l => role l = .leave

theorem mem_frs {role : Nat → Role} {n t l : Nat} : l ∈ frs role n t ↔ l < n ∧ role l = .fresh ∧ l ≠ t := by
  simp [frs]
theorem mem_lvs {role : Nat → Role} {n l : Nat} : l ∈ lvs role n ↔ l < n ∧ role l = .leave := by
  simp [lvs]
theorem frs_nodup {role : Nat → Role} {n t : Nat} : (frs role n t).Nodup :=
  List.Nodup.filter _ List.nodup_range
theorem lvs_nodup {role : Nat → Role} {n : Nat} : (lvs role n).Nodup :=
  List.Nodup.filter _ List.nodup_range

/-- A process of the old world other than the master. -/
theorem peer_spec {w : World} {ep ep' : Int} {k t : Nat} {nd : Node} {reqs : List Req}
    (ph : Int) (junk : Nat → Int) (hnd : NodeOK w ep k t nd) (hv : w.Valid reqs)
    (ht0 : t ≠ 0) (ht : t < w.n) (hta : w.alive t = true) (hk : k < maxGroups) :
    ∃ nd', peerResize nd ph (roleCmds (w.role reqs) (w.n + joins reqs) ph ep' t) junk = some nd' ∧
      (reqs = [] → NodeOK w ep k t nd') ∧ (reqs ≠ [] → After w reqs ep k t nd') := by
  have hN := hv.2.2
  have htr : w.role reqs t = .stay ∨ w.role reqs t = .leave := by
    rw [role_old ht, if_pos hta]
    by_cases h : t ∈ rms reqs <;> simp [h]
  have htf : w.role reqs t ≠ .fresh := by rcases htr with h | h <;> rw [h] <;> decide
  generalize hp0 : ({ nd.p with mystate := .inResize, st := upd nd.p.st t .inResize, phase := -1 } : Proc) = p0
  have q1 : p0.mylid = some t := by rw [← hp0]; exact hnd.lid
  have q2 : p0.mystate = .inResize := by rw [← hp0]
  have q3 : p0.known = nd.p.known := by rw [← hp0]
  have q4 : p0.n = w.n := by rw [← hp0]; exact hnd.n
  have q5 : ∀ l < w.n, p0.st l = if l = t then .inResize else if w.alive l = true then .ready else .dead := by
    intro l hl
    rw [← hp0]
    simp only [upd]
    by_cases h : l = t
    · rw [if_pos h, if_pos h]
    · rw [if_neg h, if_neg h, hnd.st l hl h]
  -- newcomers
  have r1 := recv_ids (new := true) (frs (w.role reqs) (w.n + joins reqs) t) p0 t q1 (.inr ⟨q2, rfl⟩)
    frs_nodup (by
      intro l hl
      obtain ⟨a1, a2, a3⟩ := mem_frs.1 hl
      refine ⟨by unfold maxPeers; omega, a3, ?_⟩
      rw [q3]
      exact hnd.known l (fresh_bound a2).1)
  generalize hp1 : afterIds p0 true (frs (w.role reqs) (w.n + joins reqs) t) = p1 at r1
  have n1 : p1.n = w.n + joins reqs := by
    rw [← hp1]
    simp only [afterIds]
    rw [q4]
    apply Nat.le_antisymm
    · exact foldmax_le _ _ _ (by omega) (fun l hl => (mem_frs.1 hl).1)
    · by_cases hj : joins reqs = 0
      · rw [hj]; exact le_foldmax _ _
      · have := mem_foldmax (frs (w.role reqs) (w.n + joins reqs) t) w.n (w.n + joins reqs - 1)
          (mem_frs.2 ⟨by omega, role_new (by omega) (by omega), by omega⟩)
        omega
  have s1 : ∀ l < w.n + joins reqs, p1.st l = if l = t then .inResize else
      match w.role reqs l with
      | .gone => .dead
      | .stay => .ready
      | .fresh => .noConnect
      | .leave => .ready := by
    intro l hl
    rw [← hp1]
    simp only [afterIds]
    by_cases hlt : l = t
    · subst hlt
      rw [if_neg (fun h => (mem_frs.1 h).2.2 rfl), if_pos rfl, q5 l ht, if_pos rfl]
    · rw [if_neg hlt]
      by_cases hln : w.n ≤ l
      · rw [role_new hln hl, if_pos (mem_frs.2 ⟨hl, role_new hln hl, hlt⟩)]; rfl
      · have hf : ¬ l ∈ frs (w.role reqs) (w.n + joins reqs) t := by
          intro h
          have := (fresh_bound (mem_frs.1 h).2.1).1
          omega
        rw [if_neg hf, q5 l (by omega), if_neg hlt, role_old (by omega)]
        by_cases hal : w.alive l = true
        · by_cases hrm : l ∈ rms reqs <;> simp [hal, hrm]
        · simp [hal]
  have m1 : p1.mystate = .inResize := by rw [← hp1]; exact q2
  have l1 : p1.mylid = some t := by rw [← hp1]; exact q1
  have kn1 : ∀ l, w.n + joins reqs ≤ l → p1.known l = false := by
    intro l hl
    rw [← hp1]
    simp only [afterIds]
    have : ¬ l ∈ frs (w.role reqs) (w.n + joins reqs) t := fun h => by
      have := (mem_frs.1 h).1
      omega
    rw [q3, hnd.known l (by omega)]
    simp [this]
  have hrest1 : p1.readyPeers = nd.p.readyPeers ∧ p1.deadPeers = nd.p.deadPeers := by
    rw [← hp1, ← hp0]; exact ⟨rfl, rfl⟩
  -- leaving ones
  have r2 := recv_back (lvs (w.role reqs) (w.n + joins reqs)) p1 (.inr (.inl m1)) lvs_nodup (by
      intro l hl
      obtain ⟨a1, a2⟩ := mem_lvs.1 hl
      have b := rms_bound hv a2
      refine ⟨b.1, by omega, ?_⟩
      rw [s1 l a1, a2]
      by_cases hlt : l = t <;> simp [hlt])
  generalize hp2 : afterBack p1 (lvs (w.role reqs) (w.n + joins reqs)) = p2 at r2
  have n2 : p2.n = w.n + joins reqs := by rw [← hp2]; exact n1
  have l2 : p2.mylid = some t := by rw [← hp2]; exact l1
  have kn2 : ∀ l, w.n + joins reqs ≤ l → p2.known l = false := by rw [← hp2]; exact kn1
  have hrest2 : p2.readyPeers = nd.p.readyPeers ∧ p2.deadPeers = nd.p.deadPeers := by
    rw [← hp2]; exact hrest1
  have m2 : p2.mystate = if w.role reqs t = .leave then .inResizeRemove else .inResize := by
    rw [← hp2]
    simp only [afterBack, l1, m1, Option.any_some]
    by_cases h : w.role reqs t = .leave
    · rw [if_pos h, if_pos (decide_eq_true (mem_lvs.2 ⟨by omega, h⟩))]
    · rw [if_neg h, if_neg]
      intro hh
      exact h (mem_lvs.1 (of_decide_eq_true hh)).2
  have s2 : ∀ l < w.n + joins reqs, l ≠ t → p2.st l = match w.role reqs l with
      | .gone => .dead
      | .stay => .ready
      | .fresh => .noConnect
      | .leave => .inResizeRemove := by
    intro l hl hlt
    rw [← hp2]
    simp only [afterBack]
    cases hr : w.role reqs l with
    | leave => rw [if_pos (mem_lvs.2 ⟨hl, hr⟩)]
    | gone => rw [if_neg (fun h => by have := (mem_lvs.1 h).2; rw [hr] at this; cases this), s1 l hl, if_neg hlt, hr]
    | stay => rw [if_neg (fun h => by have := (mem_lvs.1 h).2; rw [hr] at this; cases this), s1 l hl, if_neg hlt, hr]
    | fresh => rw [if_neg (fun h => by have := (mem_lvs.1 h).2; rw [hr] at this; cases this), s1 l hl, if_neg hlt, hr]
  -- ready
  have r3 : recvAll p2 [.getready, .phase ph ep'] =
      some { p2 with mystate := newSt (w.role reqs) t, st := upd p2.st t (newSt (w.role reqs) t),
                     phase := ph, epoch := ep' } := by
    rcases htr with h | h
    · rw [h, if_neg (by decide)] at m2
      simp [recvAll, recv, m2, l2, newSt, h]
    · rw [h, if_pos rfl] at m2
      simp [recvAll, recv, m2, l2, newSt, h]
  have hall : recvAll p0 (roleCmds (w.role reqs) (w.n + joins reqs) ph ep' t) =
      some { p2 with mystate := newSt (w.role reqs) t, st := upd p2.st t (newSt (w.role reqs) t),
                     phase := ph, epoch := ep' } := by
    unfold roleCmds
    rw [if_neg htf, List.nil_append, recvAll_append, recvAll_append]
    change ((recvAll p0 ((frs (w.role reqs) (w.n + joins reqs) t).map (.id · true))).bind _).bind _ = _
    rw [r1, Option.bind_some]
    change (recvAll p1 ((lvs (w.role reqs) (w.n + joins reqs)).map .backedout)).bind _ = _
    rw [r2, Option.bind_some]
    exact r3
  generalize hp3 : ({ p2 with mystate := newSt (w.role reqs) t, st := upd p2.st t (newSt (w.role reqs) t),
                              phase := ph, epoch := ep' } : Proc) = p3 at hall
  have n3 : p3.n = w.n + joins reqs := by rw [← hp3]; exact n2
  have s3 : ∀ l < w.n + joins reqs, p3.st l = match w.role reqs l with
      | .gone => .dead
      | .stay => .ready
      | .fresh => .noConnect
      | .leave => if l = t then .readyRemove else .inResizeRemove := by
    intro l hl
    rw [← hp3]
    simp only [upd]
    by_cases hlt : l = t
    · subst hlt
      rw [if_pos rfl, newSt]
      rcases htr with h | h <;> simp [h]
    · rw [if_neg hlt, s2 l hl hlt]
      cases w.role reqs l <;> simp [hlt]
  have hres : peerResize nd ph (roleCmds (w.role reqs) (w.n + joins reqs) ph ep' t) junk =
      peerEnd nd t p3 junk := by
    unfold peerResize
    rw [hnd.parent, hnd.lid]
    dsimp only
    rw [if_neg (by rw [hnd.mystate]; decide), if_pos hnd.mystate]
    have hp0' : ({ nd.p with mylid := some t, mystate := .inResize, st := upd nd.p.st t .inResize, phase := -1 } : Proc) = p0 := by
      rw [← hp0, ← hnd.lid]
    first
      | rw [hp0, hall]
      | rw [hp0', hall]
    dsimp only
    rw [if_pos (by rw [← hp3])]
  rw [hres]
  have call : (List.range p3.n).all (fun l => same (p3.st l) || diff (p3.st l)) = true := by
    rw [List.all_eq_true, n3]
    intro l hl
    rw [s3 l (List.mem_range.1 hl)]
    cases w.role reqs l <;> simp [same, diff]
  by_cases hre : reqs = []
  · obtain ⟨hz1, hz2⟩ := reqs_nil.1 hre
    have hts : w.role reqs t = .stay := by
      rcases htr with h | h
      · exact h
      · have := (mem_leave hv).1 h
        rw [hz2] at this
        simp at this
    have csame : (List.range p3.n).all (fun l => same (p3.st l)) = true := by
      rw [List.all_eq_true, n3]
      intro l hl
      have hl' := List.mem_range.1 hl
      rw [s3 l hl', role_old (by omega), hz2]
      by_cases hal : w.alive l = true <;> simp [hal, same]
    refine ⟨{ nd with p := p3 }, ?_, ?_, ?_⟩
    · unfold peerEnd
      rw [if_pos call, if_pos csame, if_pos]
      refine ⟨?_, ?_⟩
      · rw [s3 t (by omega), hts]
      · rw [← hp3]; simp [newSt, hts]
    · intro _
      have hj : w.n + joins reqs = w.n := by rw [hz1]; rfl
      constructor
      · show p3.mylid = _
        rw [← hp3]; exact l2
      · show p3.n = _
        rw [n3, hj]
      · show p3.mystate = _
        rw [← hp3]; simp [newSt, hts]
      · intro l hl hlt
        show p3.st l = _
        rw [s3 l (by omega), role_old hl, hz2]
        by_cases hal : w.alive l = true <;> simp [hal]
      · intro l hl
        show p3.known l = _
        rw [← hp3]
        exact kn2 l (by omega)
      · exact hnd.locs
      · exact hnd.myid
      · exact hnd.parent
      · exact hnd.epoch
      · exact hnd.groups
      · intro h; exact absurd h ht0
      · intro h; exact absurd h ht0
    · intro h; exact absurd hre h
  · have cdiff : ¬ (List.range p3.n).all (fun l => same (p3.st l)) = true := by
      rw [List.all_eq_true, n3]
      intro hall
      apply hre
      rw [reqs_nil]
      refine ⟨?_, ?_⟩
      · rcases Nat.eq_zero_or_pos (joins reqs) with h | h
        · exact h
        · have := hall w.n (List.mem_range.2 (by omega))
          rw [s3 _ (by omega), role_new (Nat.le_refl _) (by omega)] at this
          simp [same] at this
      · rw [List.eq_nil_iff_forall_not_mem]
        intro l hl
        have hlb := (hv.2.1 l hl).2.1
        have := hall l (List.mem_range.2 (by omega))
        rw [s3 _ (by omega), (mem_leave hv).2 hl] at this
        by_cases h : l = t <;> simp [h, same] at this
    have hgr : nd.groups < maxGroups := by have := hnd.groups; omega
    obtain ⟨nd', f1, f2, f3, f4, f5, f6⟩ := newWorld_spec (role := w.role reqs) (cls := clsPeer) (nd := nd)
      (p := p3) (t := t) (new := newSt (w.role reqs)) junk hgr (by rw [← hp3]; exact l2)
      (by rw [n3, mem_olds]; exact ⟨by omega, htr⟩) (by rw [n3, olds_role]; exact hnd.locs)
      (by rw [n3, olds_role]; exact hnd.myid)
      (by
        intro l hl
        rw [n3] at hl
        rw [s3 l hl, newSt]
        cases w.role reqs l with
        | gone => rfl
        | stay => rfl
        | fresh => rfl
        | leave => by_cases hl0 : l = t <;> simp [hl0, clsPeer])
      (by
        intro l hl hgone
        rw [n3] at hl
        rw [s3 l hl, newSt, hgone])
    refine ⟨nd', ?_, ?_, ?_⟩
    · unfold peerEnd
      rw [if_pos call, if_neg cdiff]
      exact f1
    · intro h; exact absurd h hre
    · intro _
      rw [n3] at f3
      constructor
      · rw [f2, ← hp3]; exact l2
      · rw [f2]; exact n3
      · rw [f2]
      · intro l hl
        rw [f2]
        dsimp only
        rw [if_pos (by rw [n3]; exact hl)]
      · intro l hl
        rw [f2]
        show p3.known l = _
        rw [← hp3]
        exact kn2 l hl
      · exact f3
      · exact ⟨_, f4, hnd.locs⟩
      · rw [f5, hnd.epoch]
      · rw [f6]; have := hnd.groups; omega
      · intro h; exact absurd h ht0
      · intro h; exact absurd h ht0

end Laik.Rsz
