import Verif.Model.TcpResizeLemmas
/-!
# A resize in all processes
-/

namespace Laik.Rsz

/-- State of a peer after a resize. -/
def newSt (role : Nat → Role) (l : Nat) : PS :=
  match role l with
  | .gone => .dead
  | .stay => .ready
  | .fresh => .ready
  | .leave => .readyRemove

/-- The group created in process `t`: members in order, translations from and
to the old world, own index. -/
structure GrpOK (role : Nat → Role) (n t : Nat) (g : Grp) : Prop where
  locs : g.locs = (members role n).map (Int.ofNat ·)
  toPs : g.toPs = toPar role n
  fromPs : g.fromPs (olds role n).length = fromPar role n
  myid : g.myid = if role t = .leave then -1 else ((members role n).idxOf t : Int)

/-- Process `t` outside of a resize: it is ready, knows which LIDs are alive,
and its world consists of these. -/
structure NodeOK (w : World) (ep : Int) (k t : Nat) (nd : Node) : Prop where
  lid : nd.p.mylid = some t
  n : nd.p.n = w.n
  mystate : nd.p.mystate = .ready
  st : ∀ l < w.n, l ≠ t → nd.p.st l = if w.alive l = true then .ready else .dead
  known : ∀ l, w.n ≤ l → nd.p.known l = false
  locs : nd.world.locs = w.live.map (Int.ofNat ·)
  myid : nd.world.myid = (w.live.idxOf t : Int)
  parent : nd.parent = none
  epoch : nd.iepoch = ep
  groups : nd.groups ≤ k
  ready : t = 0 → nd.p.readyPeers = (w.live.length : Int) - 1
  dead : t = 0 → nd.p.deadPeers = (w.n : Int) - w.live.length

/-- Process `t` after a resize serving `reqs`, not finished yet. -/
structure After (w : World) (reqs : List Req) (ep : Int) (k t : Nat) (nd : Node) : Prop where
  lid : nd.p.mylid = some t
  n : nd.p.n = w.n + joins reqs
  mystate : nd.p.mystate = newSt (w.role reqs) t
  st : ∀ l < w.n + joins reqs, nd.p.st l = newSt (w.role reqs) l
  known : ∀ l, w.n + joins reqs ≤ l → nd.p.known l = false
  world : GrpOK (w.role reqs) (w.n + joins reqs) t nd.world
  parent : ∃ g, nd.parent = some g ∧ g.locs = w.live.map (Int.ofNat ·)
  epoch : nd.iepoch = ep + 1
  groups : nd.groups ≤ k + 1
  ready : t = 0 → nd.p.readyPeers = (w.live.length : Int) - 1 + joins reqs
  dead : t = 0 → nd.p.deadPeers = (w.n : Int) - w.live.length

/-! ### Roles -/

theorem role_old {w : World} {reqs : List Req} {l : Nat} (h : l < w.n) :
    w.role reqs l = if w.alive l = true then (if l ∈ rms reqs then .leave else .stay) else .gone := by
  unfold World.role
  rw [if_neg (by omega), if_neg (by omega)]

theorem role_new {w : World} {reqs : List Req} {l : Nat} (h : w.n ≤ l) (h2 : l < w.n + joins reqs) :
    w.role reqs l = .fresh := by
  unfold World.role
  rw [if_neg (by omega), if_pos h]

theorem olds_role (w : World) (reqs : List Req) :
    olds (w.role reqs) (w.n + joins reqs) = w.live := by
  have h : ∀ j ≤ joins reqs, olds (w.role reqs) (w.n + j) = olds (w.role reqs) w.n := by
    intro j
    induction j with
    | zero => intro _; rfl
    | succ j ih =>
      intro hj
      rw [← Nat.add_assoc, olds_succ, ih (by omega), role_new (by omega) (by omega)]
      simp
  rw [h _ (Nat.le_refl _)]
  unfold olds World.live
  apply List.filter_congr
  intro l hl
  rw [role_old (List.mem_range.1 hl)]
  by_cases h1 : w.alive l = true
  · by_cases h2 : l ∈ rms reqs <;> simp [h1, h2]
  · simp [h1]

theorem members_role (w : World) (reqs : List Req) :
    members (w.role reqs) (w.n + joins reqs) = (w.next reqs).live := by
  rfl

theorem fresh_len (w : World) (reqs : List Req) :
    ((List.range (w.n + joins reqs)).filter fun l => w.role reqs l = .fresh).length = joins reqs := by
  have h : ∀ j ≤ joins reqs,
      ((List.range (w.n + j)).filter fun l => w.role reqs l = .fresh).length = j := by
    intro j
    induction j with
    | zero =>
      intro _
      rw [List.length_eq_zero_iff, List.filter_eq_nil_iff]
      intro l hl
      rw [role_old (List.mem_range.1 hl)]
      by_cases h1 : w.alive l = true
      · by_cases h2 : l ∈ rms reqs <;> simp [h1, h2]
      · simp [h1]
    | succ j ih =>
      intro hj
      rw [← Nat.add_assoc, List.range_succ, List.filter_append, List.length_append, ih (by omega)]
      simp [role_new (w := w) (reqs := reqs) (l := w.n + j) (by omega) (by omega)]
  exact h _ (Nat.le_refl _)

theorem mem_leave {w : World} {reqs : List Req} (hv : w.Valid reqs) {l : Nat} :
    w.role reqs l = .leave ↔ l ∈ rms reqs := by
  constructor
  · intro h
    unfold World.role at h
    by_cases h1 : w.n + joins reqs ≤ l
    · rw [if_pos h1] at h; cases h
    · rw [if_neg h1] at h
      by_cases h2 : w.n ≤ l
      · rw [if_pos h2] at h; cases h
      · rw [if_neg h2] at h
        by_cases h3 : w.alive l = true
        · rw [if_pos h3] at h
          by_cases h4 : l ∈ rms reqs
          · exact h4
          · rw [if_neg h4] at h; cases h
        · rw [if_neg h3] at h; cases h
  · intro h
    obtain ⟨-, h2, h3⟩ := hv.2.1 l h
    rw [role_old h2, if_pos h3, if_pos h]

theorem reqs_nil {reqs : List Req} : reqs = [] ↔ joins reqs = 0 ∧ rms reqs = [] := by
  cases reqs with
  | nil => simp [joins, rms]
  | cons r rs => cases r <;> simp [joins, rms]

theorem role_zero {w : World} {reqs : List Req} (hv : w.Valid reqs) (h0 : 0 < w.n)
    (ha : w.alive 0 = true) : w.role reqs 0 = .stay := by
  rw [role_old h0, if_pos ha, if_neg]
  intro h
  have := (hv.2.1 0 h).1
  omega

/-! ### Creation of the group in old processes -/

theorem newWorld_spec {role : Nat → Role} {cls : PS → Option (Role × PS)} {nd : Node} {p : Proc}
    {t : Nat} {new : Nat → PS} (junk : Nat → Int) (hg : nd.groups < maxGroups) (hlid : p.mylid = some t)
    (ht : t ∈ olds role p.n) (hw : nd.world.locs = (olds role p.n).map (Int.ofNat ·))
    (hmy : nd.world.myid = ((olds role p.n).idxOf t : Int))
    (hcls : ∀ l < p.n, cls (p.st l) = some (role l, new l))
    (hgone : ∀ l < p.n, role l = .gone → new l = p.st l) :
    ∃ nd', newWorld cls nd p junk = some nd' ∧
      nd'.p = { p with st := fun l => if l < p.n then new l else p.st l, mystate := new t } ∧
      GrpOK role p.n t nd'.world ∧ nd'.parent = some nd.world ∧ nd'.iepoch = nd.iepoch + 1 ∧
      nd'.groups = nd.groups + 1 := by
  have ho : (olds role p.n).length ≤ p.n := by
    have := List.length_filter_le (fun l => decide (role l = .stay ∨ role l = .leave)) (List.range p.n)
    rw [List.length_range] at this
    exact this
  have hm : (members role p.n).length ≤ p.n := by
    have := List.length_filter_le (fun l => decide (role l = .stay ∨ role l = .fresh)) (List.range p.n)
    rw [List.length_range] at this
    exact this
  obtain ⟨b, h1, h2⟩ := build_spec (cls := cls) (w := some nd.world) (ms := p.n) hcls hgone
    (fun g h => by cases h; exact hw) ho hm junk (fun _ => 0) p.n (Nat.le_refl _)
  have hsz : nd.world.size = b.i1 := by
    have := congrArg List.length hw
    simp only [Grp.locs, List.length_map, List.length_range] at this
    rw [this, h2.i1]
  have hst : b.st = fun l => if l < p.n then new l else p.st l := by funext l; exact h2.st l
  have hnw : newWorld cls nd p junk = some (setWorld
      { nd with p := { p with st := b.st, mystate := b.st (p.mylid.getD 0) }, groups := nd.groups + 1 }
      { size := b.i2, maxsize := p.n, mem := b.mem, myid := b.mem (p.n + nd.world.myid.toNat) }) := by
    unfold newWorld
    rw [if_pos hg, h1]
    dsimp only
    rw [if_pos hsz]
  refine ⟨_, hnw, ?_⟩
  · refine ⟨?_, ?_, rfl, rfl, rfl⟩
    · simp only [setWorld]
      rw [hst, hlid]
      simp only [Option.getD_some]
      rw [if_pos (mem_olds.1 ht).1]
    · simp only [setWorld]
      have hlt := List.idxOf_lt_length_of_mem ht
      constructor
      · exact h2.loc
      · exact h2.top
      · show (List.range _).map (fun j => b.mem (p.n + j)) = _
        rw [← h2.i1]
        exact h2.frp
      · dsimp only
        rw [hmy, Int.toNat_natCast]
        have h5 := congrArg (fun L => L[(olds role p.n).idxOf t]?) h2.frp
        simp only [List.getElem?_map, fromPar] at h5
        rw [List.getElem?_range (by rw [h2.i1]; exact hlt), List.getElem?_eq_getElem hlt] at h5
        simp only [Option.map_some, List.getElem_idxOf] at h5
        rw [Option.some.inj h5]
        rcases (mem_olds.1 ht).2 with h | h <;> simp [h]

/-! ### Commands -/

/-- What the master tells process `dst`. -/
def roleCmds (role : Nat → Role) (n : Nat) (ph ep : Int) (dst : Nat) : List Cmd :=
  (if role dst = .fresh then .id dst false :: (olds role n).map (.id · false) else []) ++
  ((List.range n).filter fun l => role l = .fresh ∧ l ≠ dst).map (.id · true) ++
  ((List.range n).filter fun l => role l = .leave).map .backedout ++ [.getready, .phase ph ep]

/-- State of peers at the master after processing the requests. -/
def midSt (role : Nat → Role) (l : Nat) : PS :=
  match role l with
  | .gone => .dead
  | .stay => .inResize
  | .fresh => .regAccepted
  | .leave => .inResizeRemove

theorem masterCmds_role {role : Nat → Role} {n : Nat} {st : Nat → PS} (h : ∀ l < n, st l = midSt role l)
    (ph ep : Int) {dst : Nat} (hd : dst < n) :
    masterCmds n st ph ep dst = roleCmds role n ph ep dst := by
  unfold masterCmds roleCmds
  have e0 : (st dst = .regAccepted) ↔ role dst = .fresh := by
    rw [h dst hd, midSt]; cases role dst <;> simp
  have e1 : ((List.range n).filter fun l => decide (st l ≠ .dead ∧ st l ≠ .regAccepted)) = olds role n := by
    apply List.filter_congr
    intro l hl
    rw [h l (List.mem_range.1 hl), midSt]
    cases role l <;> simp
  have e2 : ((List.range n).filter fun l => decide (st l = .regAccepted ∧ l ≠ dst)) =
      (List.range n).filter fun l => decide (role l = .fresh ∧ l ≠ dst) := by
    apply List.filter_congr
    intro l hl
    rw [h l (List.mem_range.1 hl), midSt]
    cases role l <;> simp
  have e3 : ((List.range n).filter fun l => decide (st l = .inResizeRemove)) =
      (List.range n).filter fun l => decide (role l = .leave) := by
    apply List.filter_congr
    intro l hl
    rw [h l (List.mem_range.1 hl), midSt]
    cases role l <;> simp
  rw [e1, e2, e3]
  by_cases h5 : role dst = .fresh
  · rw [if_pos h5, if_pos (e0.2 h5)]
  · rw [if_neg h5, if_neg (fun h => h5 (e0.1 h))]

end Laik.Rsz
