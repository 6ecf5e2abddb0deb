import Verif.Model.TcpResizeSys
/-!
# The master in a resize
-/

namespace Laik.Rsz

theorem cnt_eq {n : Nat} {st : Nat → PS} {s : PS} {q : Nat → Prop} [DecidablePred q]
    (h : ∀ l < n, (l ≠ 0 ∧ st l = s) ↔ q l) :
    cnt n st s = ((List.range n).filter fun l => q l).length := by
  unfold cnt
  congr 1
  apply List.filter_congr
  intro l hl
  exact decide_eq_decide.2 (h l (List.mem_range.1 hl))

/-- State of peers at the master when all confirmed. -/
def endSt (role : Nat → Role) (l : Nat) : PS :=
  match role l with
  | .gone => .dead
  | .stay => if l = 0 then .inResize else .inResize3
  | .fresh => .ready
  | .leave => .inResizeRemove3

theorem midSt_zero {role : Nat → Role} (h : role 0 = .stay) : midSt role 0 = .inResize := by
  simp [midSt, h]

theorem readyAll_spec {role : Nat → Role} {N : Nat} {st : Nat → PS} (h : ∀ l < N, st l = midSt role l) :
    ∃ st3, readyAll N st = some st3 ∧ (∀ l < N, l ≠ 0 → st3 l = match role l with
      | .gone => .dead
      | .stay => .inResize2
      | .fresh => .regFinishing
      | .leave => .inResizeRemove2) ∧ st3 0 = st 0 := by
  refine ⟨fun l => if l = 0 ∨ N ≤ l then st l else (readyState (st l)).getD (st l), ?_, ?_, ?_⟩
  · unfold readyAll
    rw [if_pos]
    rw [List.all_eq_true]
    intro l hl
    rw [h l (List.mem_range.1 hl), midSt]
    cases role l <;> simp [readyState]
  · intro l hl h0
    dsimp only
    rw [if_neg (by omega), h l hl, midSt]
    cases role l <;> simp [readyState]
  · dsimp only
    rw [if_pos (.inl rfl)]

theorem master_end_st {role : Nat → Role} {N : Nat} {st : Nat → PS} (h : ∀ l < N, st l = midSt role l)
    (hr0 : role 0 = .stay) {o2 : List Nat}
    (ho2 : o2.Perm ((List.range N).filter fun l => l ≠ 0 ∧ role l ≠ .gone)) :
    ∃ st3, readyAll N st = some st3 ∧ ∀ rp : Int,
      (okAll rp st3 o2).1 = rp + ((List.range N).filter fun l => role l = .fresh).length ∧
      ∀ l < N, (okAll rp st3 o2).2 l = endSt role l := by
  obtain ⟨st3, h1, h2, h3⟩ := readyAll_spec h
  refine ⟨st3, h1, ?_⟩
  intro rp
  have hnd : o2.Nodup := ho2.nodup_iff.2 (List.Nodup.filter _ List.nodup_range)
  have hmem : ∀ l, l ∈ o2 ↔ l < N ∧ l ≠ 0 ∧ role l ≠ .gone := by
    intro l
    rw [ho2.mem_iff]
    simp
  rw [okAll_spec _ _ _ hnd]
  refine ⟨?_, ?_⟩
  · dsimp only
    congr 2
    rw [(ho2.filter _).length_eq, List.filter_filter]
    congr 1
    apply List.filter_congr
    intro l hl
    have hl := List.mem_range.1 hl
    by_cases hl0 : l = 0
    · subst hl0; simp [hr0]
    · rw [h2 l hl hl0]
      cases role l <;> simp [hl0]
  · intro l hl
    dsimp only
    by_cases hl0 : l = 0
    · subst hl0
      rw [if_neg (fun hh => ((hmem 0).1 hh).2.1 rfl), h3, h 0 hl, midSt_zero hr0, endSt, hr0]
      rfl
    · rw [h2 l hl hl0]
      unfold endSt
      cases hr : role l with
      | gone => rw [if_neg (fun hh => ((hmem l).1 hh).2.2 hr)]
      | stay => rw [if_pos ((hmem l).2 ⟨hl, hl0, by simp [hr]⟩)]; simp [okState, hl0]
      | fresh => rw [if_pos ((hmem l).2 ⟨hl, hl0, by simp [hr]⟩)]; simp [okState]
      | leave => rw [if_pos ((hmem l).2 ⟨hl, hl0, by simp [hr]⟩)]; simp [okState]

/-- The master in a resize with acceptable requests. -/
theorem master_spec {w : World} {ep : Int} {k : Nat} {nd : Node} {reqs : List Req} {o1 o2 : List Nat}
    (ph : Int) (junk : Nat → Int) (hnd : NodeOK w ep k 0 nd) (hv : w.Valid reqs) (h0 : 0 < w.n)
    (ha : w.alive 0 = true) (hk : k < maxGroups) (ho1 : o1.Perm (w.live.filter fun l => l ≠ 0))
    (ho2 : o2.Perm ((List.range (w.n + joins reqs)).filter fun l => l ≠ 0 ∧ w.role reqs l ≠ .gone)) :
    ∃ nd' cmds, masterResize nd ph reqs o1 o2 junk = some (nd', cmds) ∧
      (∀ dst < w.n + joins reqs, cmds dst = roleCmds (w.role reqs) (w.n + joins reqs) ph
        (if reqs = [] then ep else ep + 1) dst) ∧
      nd'.p.n = w.n + joins reqs ∧
      (reqs = [] → NodeOK w ep k 0 nd') ∧ (reqs ≠ [] → After w reqs ep k 0 nd') := by
  have hr0 := role_zero hv h0 ha
  have hmem1 : ∀ l, l ∈ o1 ↔ (l < w.n ∧ w.alive l = true) ∧ l ≠ 0 := by
    intro l
    rw [ho1.mem_iff]
    simp only [World.live, List.mem_filter, List.mem_range, decide_eq_true_eq]
  have hnd1 : o1.Nodup := ho1.nodup_iff.2 (List.Nodup.filter _ (List.Nodup.filter _ List.nodup_range))
  have hN := hv.2.2
  -- all entered
  have e1 := enterAll_spec o1 (upd nd.p.st 0 .inResize) hnd1 (by
    intro l hl
    obtain ⟨⟨a1, a2⟩, a3⟩ := (hmem1 l).1 hl
    refine ⟨by unfold maxPeers; omega, ?_⟩
    rw [upd, if_neg a3, hnd.st l a1 a3, if_pos a2])
  generalize hst1 : (fun l => if l ∈ o1 then PS.inResize else upd nd.p.st 0 .inResize l) = st1 at e1
  have s1 : ∀ l < w.n, st1 l = if w.alive l = true then .inResize else .dead := by
    intro l hl
    rw [← hst1]
    dsimp only
    by_cases hl0 : l = 0
    · subst hl0
      rw [if_neg (fun hh => ((hmem1 0).1 hh).2 rfl), if_pos ha, upd, if_pos rfl]
    · by_cases hal : w.alive l = true
      · rw [if_pos ((hmem1 l).2 ⟨⟨hl, hal⟩, hl0⟩), if_pos hal]
      · rw [if_neg (fun hh => hal ((hmem1 l).1 hh).1.2), if_neg hal, upd, if_neg hl0, hnd.st l hl hl0,
          if_neg hal]
  have c1 : (List.range nd.p.n).all (fun l => decide (l = 0 ∨ st1 l = .dead ∨ st1 l = .inResize ∨
      st1 l = .error)) = true := by
    rw [List.all_eq_true]
    intro l hl
    rw [hnd.n, List.mem_range] at hl
    rw [s1 l hl]
    by_cases hal : w.alive l = true <;> simp [hal]
  -- requests
  have e2 := doReqs_spec reqs w.n st1 hv.1 (by
      intro l hl
      obtain ⟨a1, a2, a3⟩ := hv.2.1 l hl
      refine ⟨a2, ?_⟩
      rw [s1 l a2, if_pos a3]) (by unfold maxPeers; exact hN)
  generalize hst2 : (fun l => if l ∈ rms reqs then PS.inResizeRemove
      else if w.n ≤ l ∧ l < w.n + joins reqs then .regAccepted
      else st1 l) = st2 at e2
  have s2 : ∀ l < w.n + joins reqs, st2 l = midSt (w.role reqs) l := by
    intro l hl
    rw [← hst2]
    dsimp only
    by_cases hrm : l ∈ rms reqs
    · rw [if_pos hrm, midSt, (mem_leave hv).2 hrm]
    · rw [if_neg hrm]
      by_cases hln : w.n ≤ l
      · rw [if_pos ⟨hln, hl⟩, midSt, role_new hln hl]
      · rw [if_neg (by omega), s1 l (by omega), midSt, role_old (by omega), if_neg hrm]
        by_cases hal : w.alive l = true <;> simp [hal]
  -- confirmations
  obtain ⟨st3, e3, h3⟩ := master_end_st s2 hr0 ho2
  obtain ⟨h4, s4⟩ := h3 nd.p.readyPeers
  -- counters
  have k1 : cnt (w.n + joins reqs) st2 .regAccepted = joins reqs := by
    rw [cnt_eq (q := fun l => w.role reqs l = .fresh), fresh_len]
    intro l hl
    rw [s2 l hl, midSt]
    by_cases hl0 : l = 0
    · subst hl0; rw [hr0]; simp
    · cases w.role reqs l <;> simp [hl0]
  have k2 : cnt (w.n + joins reqs) st2 .inResizeRemove =
      ((List.range (w.n + joins reqs)).filter fun l => w.role reqs l = .leave).length := by
    rw [cnt_eq (q := fun l => w.role reqs l = .leave)]
    intro l hl
    rw [s2 l hl, midSt]
    by_cases hl0 : l = 0
    · subst hl0; rw [hr0]; simp
    · cases w.role reqs l <;> simp [hl0]
  have k2' : cnt (w.n + joins reqs) st2 .inResizeRemove = 0 ↔ rms reqs = [] := by
    rw [k2, List.length_eq_zero_iff, List.filter_eq_nil_iff]
    constructor
    · intro h
      rw [List.eq_nil_iff_forall_not_mem]
      intro l hl
      have := h l (List.mem_range.2 (by have := (hv.2.1 l hl).2.1; omega))
      exact this (by simp [(mem_leave hv).2 hl])
    · intro h l _ hh
      have := (mem_leave hv).1 (of_decide_eq_true hh)
      rw [h] at this
      simp at this
  have k3 : cnt (w.n + joins reqs) (okAll nd.p.readyPeers st3 o2).2 .dead =
      ((List.range (w.n + joins reqs)).filter fun l => w.role reqs l = .gone).length := by
    rw [cnt_eq (q := fun l => w.role reqs l = .gone)]
    intro l hl
    rw [s4 l hl, endSt]
    by_cases hl0 : l = 0
    · subst hl0; rw [hr0]; simp
    · cases w.role reqs l <;> simp [hl0]
  have hg := len_gone (w.role reqs) (w.n + joins reqs)
  rw [olds_role, fresh_len] at hg
  rw [fresh_len] at h4
  replace h4 : (okAll nd.p.readyPeers st3 o2).1 = (w.live.length : Int) - 1 + joins reqs := by
    rw [h4, hnd.ready rfl]
  have c3 : (List.range (w.n + joins reqs)).all (fun l => decide (l = 0 ∨
      (okAll nd.p.readyPeers st3 o2).2 l = .dead ∨ (okAll nd.p.readyPeers st3 o2).2 l = .ready ∨
      (okAll nd.p.readyPeers st3 o2).2 l = .inResize3 ∨
      (okAll nd.p.readyPeers st3 o2).2 l = .inResizeRemove3)) = true := by
    rw [List.all_eq_true]
    intro l hl
    rw [s4 l (List.mem_range.1 hl), endSt]
    by_cases hl0 : l = 0
    · simp [hl0]
    · cases w.role reqs l <;> simp [hl0]
  have c4 : ((w.n + joins reqs : Nat) : Int) - 1 -
        cnt (w.n + joins reqs) (okAll nd.p.readyPeers st3 o2).2 .dead =
      (okAll nd.p.readyPeers st3 o2).1 ∧
      (cnt (w.n + joins reqs) (okAll nd.p.readyPeers st3 o2).2 .dead : Int) = nd.p.deadPeers := by
    rw [k3, h4, hnd.dead rfl]
    refine ⟨?_, ?_⟩ <;> omega
  have hcmd : ∀ e : Int, ∀ dst < w.n + joins reqs, masterCmds (w.n + joins reqs) st2 ph e dst =
      roleCmds (w.role reqs) (w.n + joins reqs) ph e dst := fun e dst hd => masterCmds_role s2 ph e hd
  have hmain : masterResize nd ph reqs o1 o2 junk =
      match masterEnd nd (w.n + joins reqs) (cnt (w.n + joins reqs) st2 .regAccepted)
        (cnt (w.n + joins reqs) st2 .inResizeRemove) (okAll nd.p.readyPeers st3 o2).1
        (okAll nd.p.readyPeers st3 o2).2 junk with
      | none => none
      | some nd' => some (nd', masterCmds (w.n + joins reqs) st2 ph
          (if 0 < cnt (w.n + joins reqs) st2 .regAccepted ∨ 0 < cnt (w.n + joins reqs) st2 .inResizeRemove
            then nd.iepoch + 1 else nd.iepoch)) := by
    unfold masterResize
    rw [hnd.parent]
    dsimp only
    rw [if_pos hnd.mystate, e1]
    dsimp only
    rw [if_pos c1, hnd.n, e2]
    dsimp only
    rw [e3]
    rfl
  rw [hmain]
  by_cases hre : reqs = []
  · have hz := reqs_nil.1 hre
    have hend : masterEnd nd (w.n + joins reqs) (cnt (w.n + joins reqs) st2 .regAccepted)
        (cnt (w.n + joins reqs) st2 .inResizeRemove) (okAll nd.p.readyPeers st3 o2).1
        (okAll nd.p.readyPeers st3 o2).2 junk = some { nd with p := { nd.p with
          n := w.n + joins reqs, readyPeers := (okAll nd.p.readyPeers st3 o2).1,
          st := fun l => if l = 0 ∨ w.n + joins reqs ≤ l ∨ (okAll nd.p.readyPeers st3 o2).2 l = .dead
            then (okAll nd.p.readyPeers st3 o2).2 l else .ready } } := by
      unfold masterEnd
      rw [if_pos c3, if_pos c4, if_pos ⟨by rw [k1]; exact hz.1, k2'.2 hz.2⟩]
    rw [hend]
    refine ⟨_, _, rfl, ?_, rfl, ?_, ?_⟩
    · intro dst hd
      rw [hcmd _ _ hd, if_pos hre, if_neg, hnd.epoch]
      rw [k1, k2'.2 hz.2]
      omega
    · intro _
      have hj : w.n + joins reqs = w.n := by rw [hz.1]; rfl
      constructor
      · exact hnd.lid
      · exact hj
      · exact hnd.mystate
      · intro l hl hl0
        dsimp only
        rw [s4 l (by omega), endSt, role_old hl, hz.2]
        by_cases hal : w.alive l = true
        · simp [hal, hl0]; omega
        · simp [hal]
      · exact hnd.known
      · exact hnd.locs
      · exact hnd.myid
      · exact hnd.parent
      · exact hnd.epoch
      · exact hnd.groups
      · intro _
        dsimp only
        rw [h4, hz.1]
        simp
      · exact hnd.dead
    · intro h; exact absurd hre h
  · have hne : ¬ (cnt (w.n + joins reqs) st2 .regAccepted = 0 ∧
        cnt (w.n + joins reqs) st2 .inResizeRemove = 0) := by
      rw [k1, k2']
      exact fun h => hre (reqs_nil.2 h)
    have hgr : nd.groups < maxGroups := by have := hnd.groups; omega
    obtain ⟨nd', f1, f2, f3, f4, f5, f6⟩ := newWorld_spec (role := w.role reqs) (cls := clsMaster) (nd := nd)
      (p := { nd.p with n := w.n + joins reqs, readyPeers := (okAll nd.p.readyPeers st3 o2).1,
                        st := (okAll nd.p.readyPeers st3 o2).2 })
      (t := 0) (new := newSt (w.role reqs)) junk hgr hnd.lid
      (mem_olds.2 ⟨by dsimp only; omega, .inl hr0⟩) (by rw [olds_role]; exact hnd.locs)
      (by rw [olds_role]; exact hnd.myid)
      (by
        intro l hl
        dsimp only at hl ⊢
        rw [s4 l hl, endSt, newSt]
        cases w.role reqs l with
        | gone => rfl
        | stay => by_cases hl0 : l = 0 <;> simp [hl0, clsMaster]
        | fresh => rfl
        | leave => rfl)
      (by
        intro l hl hgone
        dsimp only at hl ⊢
        rw [s4 l hl, endSt, newSt, hgone])
    have hend : masterEnd nd (w.n + joins reqs) (cnt (w.n + joins reqs) st2 .regAccepted)
        (cnt (w.n + joins reqs) st2 .inResizeRemove) (okAll nd.p.readyPeers st3 o2).1
        (okAll nd.p.readyPeers st3 o2).2 junk = some nd' := by
      unfold masterEnd
      rw [if_pos c3, if_pos c4, if_neg hne]
      exact f1
    rw [hend]
    refine ⟨_, _, rfl, ?_, by rw [f2], ?_, ?_⟩
    · intro dst hd
      rw [hcmd _ _ hd, if_neg hre, if_pos, hnd.epoch]
      omega
    · intro h; exact absurd h hre
    · intro _
      constructor
      · rw [f2]; exact hnd.lid
      · rw [f2]
      · rw [f2]
      · intro l hl
        rw [f2]
        dsimp only
        rw [if_pos hl]
      · intro l hl
        rw [f2]
        exact hnd.known l (by omega)
      · exact f3
      · exact ⟨_, f4, hnd.locs⟩
      · rw [f5, hnd.epoch]
      · rw [f6]; have := hnd.groups; omega
      · intro _
        rw [f2]
        exact h4
      · intro _
        rw [f2]
        exact hnd.dead rfl

end Laik.Rsz
