import Verif.Model.TcpResizeHist
/-!
# C40: a resize gives the same new world everywhere
-/

namespace Laik
open Rsz

/-- C40, one resize: from a system where all processes agree on the world,
with requests which can be served, all processes come to an end, and each has
a new world with the LIDs of the remaining and new processes in increasing
order, the right translations from and to the old world, its own index in it,
and the old world as parent.  Missing from the full statement: a newcomer may
fail if the world gets smaller (see `C40_newcomer_shrink`), and the number of
groups is limited. -/
theorem C40_resize_partial {w : World} {ep : Int} {k : Nat} {s : Sys} {r : Rz} (hs : SysOK w ep k s)
    (hr : RzOK w r) (hk : k < 50) (hre : r.reqs ≠ []) :
    ∃ s', sysResize s r = some s' ∧ s'.n = w.n + joins r.reqs ∧
      ∀ t < s'.n, (s'.live t = true ↔ w.role r.reqs t ≠ .gone) ∧
        (s'.live t = true →
          (s'.node t).world.locs = (w.next r.reqs).live.map (Int.ofNat ·) ∧
          (s'.node t).world.toPs = toPar (w.role r.reqs) (w.n + joins r.reqs) ∧
          (s'.node t).world.fromPs w.live.length = fromPar (w.role r.reqs) (w.n + joins r.reqs) ∧
          (s'.node t).world.myid =
            (if t ∈ rms r.reqs then -1 else ((w.next r.reqs).live.idxOf t : Int)) ∧
          (∃ g, (s'.node t).parent = some g ∧ g.locs = w.live.map (Int.ofNat ·)) ∧
          (s'.node t).iepoch = ep + 1) := by
  obtain ⟨s', h1, h2, h3, h4⟩ := sysResize_spec hs hr hk
  refine ⟨s', h1, h2, ?_⟩
  intro t ht
  rw [h2] at ht
  refine ⟨h3 t ht, ?_⟩
  intro hl
  have ha := (h4 t ht hl).2 hre
  refine ⟨ha.world.locs, ha.world.toPs, ?_, ?_, ha.parent, ha.epoch⟩
  · rw [← olds_role w r.reqs]; exact ha.world.fromPs
  · rw [ha.world.myid]
    by_cases h : w.role r.reqs t = .leave
    · rw [if_pos h, if_pos ((mem_leave hr.valid).1 h)]
    · rw [if_neg h, if_neg (fun hh => h ((mem_leave hr.valid).2 hh)), members_role]

/-- C40, without requests: nothing changes. -/
theorem C40_nothing {w : World} {ep : Int} {k : Nat} {s : Sys} {r : Rz} (hs : SysOK w ep k s)
    (hr : RzOK w r) (hk : k < 50) (hre : r.reqs = []) :
    ∃ s', sysResize s r = some s' ∧ s'.n = w.n ∧ ∀ t < w.n, w.alive t = true →
      (s'.node t).world.locs = w.live.map (Int.ofNat ·) ∧ (s'.node t).parent = none ∧
      (s'.node t).iepoch = ep := by
  obtain ⟨s', h1, h2, h3, h4⟩ := sysResize_spec hs hr hk
  have hj : w.n + joins r.reqs = w.n := by rw [hre]; rfl
  refine ⟨s', h1, by rw [h2, hj], ?_⟩
  intro t ht hal
  have hl : s'.live t = true := (h3 t (by omega)).2 (by
    rw [role_old ht, if_pos hal, hre]; simp [rms])
  have ha := (h4 t (by omega) hl).1 hre
  exact ⟨ha.locs, ha.parent, ha.epoch⟩

/-- C40 for all histories: after startup and any series of finished resizes
which can be served, the next resize ends in all processes, and any two have
the same group: members, order, translation from and to the old world, and
epoch. -/
theorem C40_same_group_partial {ws : Nat} (junk junk2 : Nat → Nat → Int) (h0 : 0 < ws) (hws : ws ≤ 256)
    (rs : List Rz) (r : Rz) (hg : Good (startW ws) rs) (hr : RzOK ((startW ws).run rs) r)
    (hk : changes rs < 49) (hre : r.reqs ≠ []) :
    ∃ s0 s s', sysStart ws junk junk2 = some s0 ∧ sysRun s0 rs = some s ∧ sysResize s r = some s' ∧
      ∀ t < s'.n, ∀ u < s'.n, s'.live t = true → s'.live u = true →
        (s'.node t).world.size = (s'.node u).world.size ∧
        (∀ i < (s'.node t).world.size, (s'.node t).world.loc i = (s'.node u).world.loc i ∧
          (s'.node t).world.toP i = (s'.node u).world.toP i) ∧
        (∀ i < (s.node 0).world.size, (s'.node t).world.fromP i = (s'.node u).world.fromP i) ∧
        (s'.node t).iepoch = (s'.node u).iepoch ∧
        (s'.node t).parent.map Grp.locs = (s'.node u).parent.map Grp.locs := by
  obtain ⟨s0, a1, a2⟩ := sysStart_spec junk junk2 h0 hws
  obtain ⟨s, b1, b2⟩ := sysRun_spec rs _ _ _ s0 a2 hg (by unfold maxGroups; omega)
  obtain ⟨s', c1, c2, c3⟩ := C40_resize_partial b2 hr (by omega) hre
  refine ⟨s0, s, s', a1, b1, c1, ?_⟩
  intro t ht u hu hlt hlu
  obtain ⟨t1, t2, t3, -, ⟨g, t5, t6⟩, t7⟩ := (c3 t ht).2 hlt
  obtain ⟨u1, u2, u3, -, ⟨g', u5, u6⟩, u7⟩ := (c3 u hu).2 hlu
  have hsz : (s'.node t).world.size = (s'.node u).world.size := by
    have e1 := congrArg List.length t1
    have e2 := congrArg List.length u1
    simp only [Grp.locs, List.length_map, List.length_range] at e1 e2
    rw [e1, e2]
  have hold : (s.node 0).world.size = ((startW ws).run rs).live.length := by
    have := congrArg List.length (b2.node 0 b2.pos b2.master).locs
    simpa [Grp.locs] using this
  have get : ∀ {f g : Nat → Int} {m : Nat}, (List.range m).map f = (List.range m).map g →
      ∀ i < m, f i = g i := by
    intro f g m h i hi
    exact List.map_inj_left.1 h i (List.mem_range.2 hi)
  refine ⟨hsz, ?_, ?_, by rw [t7, u7], ?_⟩
  · intro i hi
    have e1 : (s'.node t).world.locs = (s'.node u).world.locs := by rw [t1, u1]
    have e2 : (s'.node t).world.toPs = (s'.node u).world.toPs := by rw [t2, u2]
    unfold Grp.locs at e1
    unfold Grp.toPs at e2
    rw [← hsz] at e1 e2
    exact ⟨get e1 i hi, get e2 i hi⟩
  · intro i hi
    rw [hold] at hi
    have e3 : (s'.node t).world.fromPs ((startW ws).run rs).live.length =
        (s'.node u).world.fromPs ((startW ws).run rs).live.length := by rw [t3, u3]
    exact get e3 i hi
  · rw [t5, u5]
    simp only [Option.map_some]
    rw [t6, u6]

/-- C40, after finishing: all processes left have the same world without a
parent, and the same epoch, which is the number of changes. -/
theorem C40_history_partial {ws : Nat} (junk junk2 : Nat → Nat → Int) (h0 : 0 < ws) (hws : ws ≤ 256)
    (rs : List Rz) (hg : Good (startW ws) rs) (hk : changes rs < 49) :
    ∃ s0 s, sysStart ws junk junk2 = some s0 ∧ sysRun s0 rs = some s ∧
      s.n = ((startW ws).run rs).n ∧
      ∀ t < s.n, s.live t = ((startW ws).run rs).alive t ∧ (s.live t = true →
        (s.node t).world.locs = ((startW ws).run rs).live.map (Int.ofNat ·) ∧
        (s.node t).world.myid = (((startW ws).run rs).live.idxOf t : Int) ∧
        (s.node t).parent = none ∧ (s.node t).iepoch = changes rs) := by
  obtain ⟨s0, a1, a2⟩ := sysStart_spec junk junk2 h0 hws
  obtain ⟨s, b1, b2⟩ := sysRun_spec rs _ _ _ s0 a2 hg (by unfold maxGroups; omega)
  refine ⟨s0, s, a1, b1, b2.n, ?_⟩
  intro t ht
  rw [b2.n] at ht
  refine ⟨b2.live t ht, ?_⟩
  intro hl
  rw [b2.live t ht] at hl
  have h := b2.node t ht hl
  refine ⟨h.locs, h.myid, h.parent, ?_⟩
  rw [h.epoch]
  omega

/-- With 50 groups created, the world cannot be changed any more: the master
stops with a failed assert. -/
theorem C40_group_limit {nd nd' : Node} {ph : Int} {reqs : List Req} {o1 o2 : List Nat}
    {junk : Nat → Int} {cmds : Nat → List Cmd} (hg : nd.groups = 50)
    (h : masterResize nd ph reqs o1 o2 junk = some (nd', cmds)) :
    nd'.world = nd.world ∧ nd'.iepoch = nd.iepoch := by
  have hnw : ∀ cls p junk, newWorld cls nd p junk = none := by
    intro cls p junk
    unfold newWorld
    rw [if_neg (by rw [hg]; decide)]
  unfold masterResize at h
  cases hp : nd.parent with
  | some g => rw [hp] at h; cases h
  | none =>
    rw [hp] at h
    dsimp only at h
    split at h
    · split at h
      · cases h
      · split at h
        · split at h
          · cases h
          · split at h
            · cases h
            · split at h
              · cases h
              · rename_i hme
                cases h
                unfold masterEnd at hme
                split at hme
                · split at hme
                  · split at hme
                    · cases hme; exact ⟨rfl, rfl⟩
                    · rw [hnw] at hme; cases hme
                  · cases hme
                · cases hme
        · cases h
    · cases h

namespace C40ex

def jk : Nat → Nat → Int := fun _ _ => 77

/-- Three processes: 1 leaves, two join. -/
def r1 : Rz := { ph := 5, reqs := [.join, .remove 1, .join], o1 := [2, 1], o2 := [3, 1, 4, 2], junk := jk, junk2 := jk }
/-- Then 3 leaves, nobody joins. -/
def r2 : Rz := { ph := 6, reqs := [.remove 3], o1 := [2, 4, 3], o2 := [4, 3, 2], junk := jk, junk2 := jk }
/-- Then nothing. -/
def r3 : Rz := { ph := 7, reqs := [], o1 := [4, 2], o2 := [2, 4], junk := jk, junk2 := jk }

theorem r1_ok : RzOK (startW 3) r1 :=
  ⟨by unfold World.Valid; decide, by decide, by decide, by decide, by decide⟩
theorem r2_ok : RzOK ((startW 3).next r1.reqs) r2 :=
  ⟨by unfold World.Valid; decide, by decide, by decide, by decide, by decide⟩
theorem r3_ok : RzOK (((startW 3).next r1.reqs).next r2.reqs) r3 :=
  ⟨by unfold World.Valid; decide, by decide, by decide, by decide, by decide⟩

/-- A history meeting the hypotheses. -/
example : Good (startW 3) [r1, r2, r3] := ⟨r1_ok, r2_ok, r3_ok, trivial⟩

/-- What a process has after the first resize. -/
def view (s : Sys) (t : Nat) : List Int × List Int × List Int × Int :=
  ((s.node t).world.locs, (s.node t).world.toPs, (s.node t).world.fromPs 3, (s.node t).world.myid)

example : ((sysStart 3 jk jk).bind fun s => (sysResize s r1).map fun s' => [0, 1, 2, 3, 4].map (view s')) =
    some [([0, 2, 3, 4], [0, 2, -1, -1], [0, -1, 1], 0), ([0, 2, 3, 4], [0, 2, -1, -1], [0, -1, 1], -1),
      ([0, 2, 3, 4], [0, 2, -1, -1], [0, -1, 1], 1), ([0, 2, 3, 4], [0, 2, -1, -1], [0, -1, 1], 2),
      ([0, 2, 3, 4], [0, 2, -1, -1], [0, -1, 1], 3)] := by decide +kernel

example : ((sysStart 3 jk jk).bind fun s => (sysRun s [r1, r2, r3]).map fun s' =>
      [0, 2, 4].map fun t => ((s'.node t).world.locs, (s'.node t).iepoch)) =
    some [([0, 2, 4], 2), ([0, 2, 4], 2), ([0, 2, 4], 2)] := by decide +kernel

example : changes [r1, r2, r3] = 2 := by decide

/-- Processes 1 and 2 leave, 3 joins: the world gets smaller. -/
def bad : Rz := { ph := 5, reqs := [.remove 1, .remove 2, .join], o1 := [1, 2], o2 := [1, 2, 3], junk := jk, junk2 := jk }

/-- Removal of the same process requested twice. -/
def twice : Rz := { ph := 5, reqs := [.remove 1, .remove 1], o1 := [1, 2], o2 := [1, 2], junk := jk, junk2 := jk }

/-- Removal of the master requested. -/
def first : Rz := { ph := 5, reqs := [.remove 0], o1 := [1, 2], o2 := [1, 2], junk := jk, junk2 := jk }

end C40ex

open C40ex

/-- The condition for newcomers is needed: with the world shrinking from 3 to
2 processes, the requests can be served and all processes come to an end, but
the newcomer (LID 3) gets another translation than the others: it thinks that
process 0 is not in the old world. -/
theorem C40_newcomer_shrink :
    (startW 3).Valid bad.reqs ∧
    ((sysStart 3 jk jk).bind fun s => (sysResize s bad).map fun s' =>
      ((s'.node 0).world.locs, (s'.node 0).world.toPs, (s'.node 3).world.locs, (s'.node 3).world.toPs)) =
      some ([0, 3], [0, -1], [0, 3], [-1, -1]) := by
  refine ⟨by unfold World.Valid; decide, by decide +kernel⟩

/-- A process requested to be removed twice, or the master requested to be
removed, ends the master with a failed assert. -/
theorem C40_remove_fails :
    ((sysStart 3 jk jk).bind fun s => (sysResize s twice).map fun s' => s'.n) = none ∧
    ((sysStart 3 jk jk).bind fun s => (sysResize s first).map fun s' => s'.n) = none := by
  refine ⟨by decide +kernel, by decide +kernel⟩

/-- Peers which became broken are skipped when waiting for processes to enter
the resize (src/backend-tcp2.c 2635), but the resize fails nevertheless. -/
theorem C40_error_peer :
    ((sysStart 3 jk jk).bind fun s =>
      (enterAll (upd (upd (s.node 0).p.st 2 .error) 0 .inResize) [1]).map fun st =>
        ((List.range 3).all (fun l => l = 0 ∨ st l = .dead ∨ st l = .inResize ∨ st l = .error),
         (readyAll 3 st).isSome)) = some (true, false) := by
  decide +kernel

end Laik
