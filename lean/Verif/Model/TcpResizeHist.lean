import Verif.Model.TcpResizeNew
/-!
# Series of resizes
-/

namespace Laik.Rsz

/-- All processes agree on the world `w`, in epoch `ep`, after at most `k`
group creations each. -/
structure SysOK (w : World) (ep : Int) (k : Nat) (s : Sys) : Prop where
  n : s.n = w.n
  live : ∀ t < w.n, s.live t = w.alive t
  node : ∀ t < w.n, w.alive t = true → NodeOK w ep k t (s.node t)
  pos : 0 < w.n
  master : w.alive 0 = true
  one : 1 ≤ k

/-- A resize to be served from `w`: acceptable requests, `enterresize` and
`ok` arrive once from each process in whatever order, and the world does not
get smaller if processes join. -/
structure RzOK (w : World) (r : Rz) : Prop where
  valid : w.Valid r.reqs
  phase : r.ph ≠ -1
  o1 : r.o1.Perm (w.live.filter fun l => l ≠ 0)
  o2 : r.o2.Perm ((List.range (w.n + joins r.reqs)).filter fun l => l ≠ 0 ∧ w.role r.reqs l ≠ .gone)
  grow : 0 < joins r.reqs → w.live.length ≤ (w.next r.reqs).live.length

theorem finish_spec {w : World} {reqs : List Req} {ep : Int} {k t : Nat} {nd : Node} (hv : w.Valid reqs)
    (ht : w.role reqs t = .stay ∨ w.role reqs t = .fresh) (h : After w reqs ep k t nd) :
    NodeOK (w.next reqs) (ep + 1) (k + 1) t (finish nd) := by
  obtain ⟨g, hp, -⟩ := h.parent
  have hf : finish nd = { nd with p := finishP nd.p, parent := none } := by
    unfold finish; rw [hp]
  rw [hf]
  have hlv : ((List.range nd.p.n).filter fun l => decide (l ≠ 0 ∧ nd.p.st l = .readyRemove)).length =
      ((List.range (w.n + joins reqs)).filter fun l => w.role reqs l = .leave).length := by
    rw [h.n]
    congr 1
    apply List.filter_congr
    intro l hl
    rw [h.st l (List.mem_range.1 hl), newSt]
    cases hr : w.role reqs l <;> simp
    have := (rms_bound hv hr).1
    omega
  have hs := len_split (w.role reqs) (w.n + joins reqs)
  rw [olds_role, fresh_len, members_role] at hs
  constructor
  · exact h.lid
  · exact h.n
  · show nd.p.mystate = _
    rw [h.mystate, newSt]
    rcases ht with ht | ht <;> rw [ht]
  · intro l hl hlt
    simp only [World.next] at hl ⊢
    simp only [finishP]
    have e := h.st l hl
    unfold newSt at e
    have hc : w.role reqs l = .gone ∨ w.role reqs l = .stay ∨ w.role reqs l = .fresh ∨
        w.role reqs l = .leave := by cases w.role reqs l <;> simp
    rcases hc with hr | hr | hr | hr
    · rw [hr] at e; simp [e, hr]
    · rw [hr] at e; simp [e, hr]
    · rw [hr] at e; simp [e, hr]
    · rw [hr] at e
      have := (rms_bound hv hr).1
      rw [if_pos ⟨by omega, by rw [h.n]; exact hl, e⟩]
      simp [hr]
  · exact h.known
  · exact h.world.locs
  · show nd.world.myid = _
    rw [h.world.myid, if_neg, members_role]
    rcases ht with ht | ht <;> rw [ht] <;> decide
  · rfl
  · exact h.epoch
  · exact h.groups
  · intro h0
    show nd.p.readyPeers - _ = _
    rw [h.ready h0, hlv]
    omega
  · intro h0
    show nd.p.deadPeers + _ = _
    rw [h.dead h0, hlv]
    simp only [World.next] at hs ⊢
    omega

theorem next_nil_alive (w : World) {l : Nat} (hl : l < w.n) : (w.next []).alive l = w.alive l := by
  simp only [World.next]
  rw [role_old hl]
  by_cases h : w.alive l = true <;> simp [h, rms]

theorem next_nil_live (w : World) : (w.next []).live = w.live := by
  unfold World.live
  apply List.filter_congr
  intro l hl
  exact next_nil_alive w (by simpa [World.next, joins] using hl)

theorem NodeOK.nil {w : World} {ep : Int} {k t : Nat} {nd : Node} (h : NodeOK w ep k t nd) :
    NodeOK (w.next []) ep k t nd := by
  constructor
  · exact h.lid
  · exact h.n
  · exact h.mystate
  · intro l hl hlt
    have hl' : l < w.n := by simpa [World.next, joins] using hl
    rw [next_nil_alive w hl']
    exact h.st l hl' hlt
  · exact h.known
  · rw [next_nil_live]; exact h.locs
  · rw [next_nil_live]; exact h.myid
  · exact h.parent
  · exact h.epoch
  · exact h.groups
  · rw [next_nil_live]; exact h.ready
  · rw [next_nil_live]; exact h.dead

/-- A resize in all processes. -/
theorem sysResize_spec {w : World} {ep : Int} {k : Nat} {s : Sys} {r : Rz} (hs : SysOK w ep k s)
    (hr : RzOK w r) (hk : k < maxGroups) :
    ∃ s', sysResize s r = some s' ∧ s'.n = w.n + joins r.reqs ∧
      (∀ t < w.n + joins r.reqs, s'.live t = true ↔ w.role r.reqs t ≠ .gone) ∧
      (∀ t < w.n + joins r.reqs, s'.live t = true →
        (r.reqs = [] → NodeOK w ep k t (s'.node t)) ∧
        (r.reqs ≠ [] → After w r.reqs ep k t (s'.node t))) := by
  obtain ⟨nd0, cmds, h1, h2, h3, h4, h5⟩ := master_spec r.ph (r.junk 0) (hs.node 0 hs.pos hs.master) hr.valid
    hs.pos hs.master hk hr.o1 hr.o2
  have hnode : ∀ t < w.n + joins r.reqs, (t < w.n → w.alive t = true) → ∃ nd,
      sysNode s r nd0 cmds t = some nd ∧ (r.reqs = [] → NodeOK w ep k t nd) ∧
      (r.reqs ≠ [] → After w r.reqs ep k t nd) := by
    intro t ht hta
    unfold sysNode
    by_cases ht0 : t = 0
    · subst ht0
      rw [if_pos rfl]
      exact ⟨nd0, rfl, h4, h5⟩
    · rw [if_neg ht0, hs.n]
      by_cases htn : t < w.n
      · rw [if_pos htn, h2 t ht]
        exact peer_spec r.ph (r.junk t) (hs.node t htn (hta htn)) hr.valid ht0 htn (hta htn) hk
      · rw [if_neg htn, h2 t ht]
        have hre : r.reqs ≠ [] := by
          intro h
          rw [h] at ht
          simp only [joins] at ht
          omega
        rw [if_neg hre]
        obtain ⟨nd, a1, a2⟩ := newcomer_spec (k := k) (ep := ep) (r.junk t) (r.junk2 t) hr.valid hs.pos
          hs.master (by omega) ht hr.phase hs.one (hr.grow (by omega))
        exact ⟨nd, a1, fun h => absurd h hre, fun _ => a2⟩
  have hall : (List.range nd0.p.n).all
      (fun t => (decide (t < s.n) && !s.live t) || (sysNode s r nd0 cmds t).isSome) = true := by
    rw [List.all_eq_true, h3]
    intro t ht
    have ht := List.mem_range.1 ht
    by_cases hd : t < w.n ∧ w.alive t = false
    · rw [hs.n, hs.live t hd.1]
      simp [hd.1, hd.2]
    · obtain ⟨nd, a1, -⟩ := hnode t ht (fun h => by
        cases hal : w.alive t with
        | true => rfl
        | false => exact absurd ⟨h, hal⟩ hd)
      rw [a1]
      simp
  refine ⟨{ n := nd0.p.n, live := fun t => if t < s.n then s.live t else decide (t < nd0.p.n),
            node := fun t => (sysNode s r nd0 cmds t).getD nd0 }, ?_, h3, ?_, ?_⟩
  · unfold sysResize
    rw [h1]
    dsimp only
    rw [if_pos hall]
  · intro t ht
    dsimp only
    rw [hs.n]
    by_cases htn : t < w.n
    · rw [if_pos htn, hs.live t htn, role_old htn]
      by_cases hal : w.alive t = true
      · by_cases h : t ∈ rms r.reqs <;> simp [hal, h]
      · simp [hal]
    · rw [if_neg htn, role_new (by omega) ht, h3]
      simp [ht]
  · intro t ht hl
    dsimp only at hl ⊢
    rw [hs.n] at hl
    obtain ⟨nd, a1, a2, a3⟩ := hnode t ht (fun h => by rw [if_pos h, hs.live t h] at hl; exact hl)
    rw [a1]
    exact ⟨a2, a3⟩

theorem finish_none {nd : Node} (h : nd.parent = none) : finish nd = nd := by
  unfold finish; rw [h]

/-- Resize and finish: all agree on the next world. -/
theorem sysStep_spec {w : World} {ep : Int} {k : Nat} {s : Sys} {r : Rz} (hs : SysOK w ep k s)
    (hr : RzOK w r) (hk : k < maxGroups) :
    ∃ s', sysResize s r = some s' ∧ SysOK (w.next r.reqs) (if r.reqs = [] then ep else ep + 1)
      (if r.reqs = [] then k else k + 1) (sysFinish s') := by
  obtain ⟨s', h1, h2, h3, h4⟩ := sysResize_spec hs hr hk
  have hr0 := role_zero hr.valid hs.pos hs.master
  have hone := hs.one
  refine ⟨s', h1, ?_⟩
  constructor
  · exact h2
  · intro t ht
    simp only [World.next] at ht ⊢
    simp only [sysFinish]
    by_cases hl : s'.live t = true
    · have hng := (h3 t ht).1 hl
      rw [hl]
      obtain ⟨a1, a2⟩ := h4 t ht hl
      by_cases hre : r.reqs = []
      · rw [(a1 hre).mystate]
        rw [hre] at hng ⊢
        have htn : t < w.n := by rw [hre] at ht; exact ht
        rw [role_old htn] at hng ⊢
        by_cases hal : w.alive t = true <;> simp [hal, rms] at hng ⊢
      · rw [(a2 hre).mystate, newSt]
        cases hrl : w.role r.reqs t <;> simp
        exact hng hrl
    · have hg : w.role r.reqs t = .gone := by
        cases hrl : w.role r.reqs t <;> first | rfl | exact absurd ((h3 t ht).2 (by rw [hrl]; decide)) hl
      simp [hl, hg]
  · intro t ht hal
    simp only [World.next] at ht hal
    have hrt : w.role r.reqs t = .stay ∨ w.role r.reqs t = .fresh := by simpa using hal
    have hl : s'.live t = true := (h3 t ht).2 (by rcases hrt with h | h <;> rw [h] <;> decide)
    obtain ⟨a1, a2⟩ := h4 t ht hl
    simp only [sysFinish]
    by_cases hre : r.reqs = []
    · rw [if_pos hre, if_pos hre, finish_none (a1 hre).parent, hre]
      exact (a1 hre).nil
    · rw [if_neg hre, if_neg hre]
      exact finish_spec hr.valid hrt (a2 hre)
  · show 0 < w.n + joins r.reqs
    have := hs.pos
    omega
  · simp [World.next, hr0]
  · by_cases hre : r.reqs = []
    · rw [if_pos hre]; exact hone
    · rw [if_neg hre]; omega

/-- Resizes can be served one after the other. -/
def Good : World → List Rz → Prop
  | _, [] => True
  | w, r :: rs => RzOK w r ∧ Good (w.next r.reqs) rs

/-- Number of resizes changing the world. -/
def changes : List Rz → Nat
  | [] => 0
  | r :: rs => (if r.reqs = [] then 0 else 1) + changes rs

/-- The world after a series of resizes. -/
def World.run : World → List Rz → World
  | w, [] => w
  | w, r :: rs => World.run (w.next r.reqs) rs

theorem sysRun_spec : ∀ (rs : List Rz) (w : World) (ep : Int) (k : Nat) (s : Sys), SysOK w ep k s →
    Good w rs → k + changes rs < maxGroups →
    ∃ s', sysRun s rs = some s' ∧ SysOK (w.run rs) (ep + changes rs) (k + changes rs) s' := by
  intro rs
  induction rs with
  | nil =>
    intro w ep k s hs _ _
    refine ⟨s, rfl, ?_⟩
    simpa [changes, World.run] using hs
  | cons r rs ih =>
    intro w ep k s hs hg hk
    obtain ⟨hr, hg⟩ := hg
    obtain ⟨s1, h1, h2⟩ := sysStep_spec hs hr (by omega)
    simp only [changes] at hk ⊢
    obtain ⟨s2, h3, h4⟩ := ih _ _ _ _ h2 hg (by
      by_cases hre : r.reqs = []
      · rw [if_pos hre] at hk ⊢; omega
      · rw [if_neg hre] at hk ⊢; omega)
    refine ⟨s2, ?_, ?_⟩
    · simp only [sysRun, h1, Option.bind_some]; exact h3
    · simp only [World.run]
      by_cases hre : r.reqs = []
      · rw [if_pos hre, if_pos hre] at h4
        rw [if_pos hre, Nat.zero_add]
        exact h4
      · rw [if_neg hre, if_neg hre] at h4
        rw [if_neg hre]
        have e1 : ep + 1 + (changes rs : Int) = ep + ((1 + changes rs : Nat) : Int) := by omega
        have e2 : k + 1 + changes rs = k + (1 + changes rs) := by omega
        rw [e1, e2] at h4
        exact h4

/-- Startup. -/
theorem sysStart_spec {ws : Nat} (junk junk2 : Nat → Nat → Int) (h0 : 0 < ws) (hws : ws ≤ maxPeers) :
    ∃ s, sysStart ws junk junk2 = some s ∧ SysOK (startW ws) 0 1 s := by
  have hm : ∃ nd0, startMaster ws (junk 0) = some nd0 ∧ NodeOK (startW ws) 0 1 0 nd0 := by
    refine ⟨_, by unfold startMaster; rw [if_pos ⟨h0, hws⟩], ?_⟩
    constructor
    · rfl
    · rfl
    · rfl
    · intro l hl _
      simp only [startW] at hl ⊢
      rw [if_pos hl, if_pos trivial]
    · intro l hl
      simp only [startW] at hl ⊢
      exact decide_eq_false (by omega)
    · rw [startW_live]
      show (List.range ws).map (fun k => if k < ws then (k : Int) else junk 0 k) = _
      apply List.map_congr_left
      intro l hl
      rw [if_pos (List.mem_range.1 hl)]; rfl
    · rw [startW_live]
      show (0 : Int) = _
      have := List.Nodup.idxOf_getElem (List.nodup_range (n := ws)) 0 (by simpa using h0)
      rw [List.getElem_range] at this
      rw [this]; rfl
    · rfl
    · rfl
    · exact Nat.le_refl _
    · intro _; rw [startW_live, List.length_range]
    · intro _; rw [startW_live, List.length_range]; simp [startW]
  obtain ⟨nd0, h1, h2⟩ := hm
  have hall : (List.range ws).all
      (fun t => decide (t = 0) || (newcomer (startCmds ws t) (junk t) (junk2 t)).isSome) = true := by
    rw [List.all_eq_true]
    intro t ht
    by_cases ht0 : t = 0
    · simp [ht0]
    · obtain ⟨nd, a1, -⟩ := start_spec (junk t) (junk2 t) ht0 (List.mem_range.1 ht) hws
      rw [a1]; simp
  refine ⟨_, by unfold sysStart; rw [h1]; dsimp only; rw [if_pos hall], ?_⟩
  constructor
  · rfl
  · intro t ht
    simp only [startW] at ht ⊢
    simp [ht]
  · intro t ht _
    simp only [startW] at ht
    dsimp only
    by_cases ht0 : t = 0
    · rw [if_pos ht0, ht0]; exact h2
    · rw [if_neg ht0]
      obtain ⟨nd, a1, a2⟩ := start_spec (junk t) (junk2 t) ht0 ht hws
      rw [a1]; exact a2
  · exact h0
  · rfl
  · exact Nat.le_refl _

end Laik.Rsz
