import Verif.Model.ReqQueueLemmas
import Verif.Props.TcpResize
/-!
# C41: Bookkeeping of the world

The epoch changes exactly when the world group changes, a finished resize
detaches the new world from the old, and resize requests are neither lost nor
duplicated.
-/

namespace Laik
open Laik.Rsz

/-! ### Requests -/

/-- In any history of arriving requests and resizes, starting without
requests: each request which arrived is either served by a resize, in the
queue, or waiting at its connection, and in one of these places only once, for
each time it arrived.

Missing for the full claim (all false for the code, see below): connections
may close; `cutoff` may arrive in the second part of a resize; a connection may
register twice.  Also, histories which run into failed asserts are not
covered. -/
theorem C41_exactly_once_partial (s0 s : Qs) (ops : List Op)
    (h1 : s0.served = []) (h2 : s0.queue = []) (h3 : s0.waiting = [])
    (hrun : runQ s0 ops = some s)
    (hclose : ∀ e ∈ evsOf ops, e.isClose = false)
    (hreg : (regsOf (evsOf ops)).Nodup) (hnew : ∀ fd ∈ regsOf (evsOf ops), s0.regd fd = false)
    (hcut : ∀ a b, Op.resize a b ∈ ops → ∀ e ∈ b, e.isCut = false) :
    (s.served ++ s.queue ++ s.waiting).Perm ((evsOf ops).flatMap Ev.reqs) := by
  have hs : QInv s0.regd [] s0 := ⟨by rw [h1, h2, h3]; rfl, fun fd h => .inl h⟩
  have := runQ_inv ops [] s0 s hs hrun hclose (by simpa using hreg) hnew hcut
  simpa using this.perm

/-- A resize serves all requests known on entry, be they in the queue or
waiting at a connection: afterwards they are neither in the queue nor waiting,
and the world is the one given by the requests served. -/
theorem C41_served_now (s s' : Qs) (mid1 mid2 : List Ev) (h : resizeQ s mid1 mid2 = some s') :
    (∃ l, s'.served = s.served ++ (s.queue ++ s.waiting ++ l)) ∨
    (s'.served = s.served ∧ s.queue = [] ∧ s.waiting = []) := by
  unfold resizeQ at h
  cases hp : progress s with
  | none => rw [hp] at h; cases h
  | some s1 =>
    obtain ⟨p1, p2, p3, p4⟩ := progress_spec hp
    rw [hp] at h
    dsimp only at h
    cases he : evs s1 mid1 with
    | none => rw [he] at h; cases h
    | some s2 =>
      rw [he] at h
      dsimp only at h
      cases hq1 : s1.q with
      | none =>
        rw [hq1] at h
        right
        have hq : s1.queue = [] := by unfold Qs.queue; rw [hq1]; rfl
        rw [p1] at hq
        obtain ⟨q1, q2⟩ := List.append_eq_nil_iff.1 hq
        exact ⟨by rw [evs_served _ _ _ h, evs_served _ _ _ he, p3], q1, q2⟩
      | some l =>
        rw [hq1] at h
        dsimp only at h
        cases hv : serve s2 with
        | none => rw [hv] at h; cases h
        | some s3 =>
          rw [hv] at h
          dsimp only at h
          cases hb : evs s3 mid2 with
          | none => rw [hb] at h; cases h
          | some s4 =>
            rw [hb] at h
            cases h
            left
            obtain ⟨l2, hl2⟩ := evs_queue _ _ _ he
            refine ⟨l2, ?_⟩
            show s4.served = _
            rw [evs_served _ _ _ hb, (serve_spec hv).1, evs_served _ _ _ he, p3, hl2, p1]

/-- A resize changes the world by what it serves, in this order. -/
theorem C41_world_of_served (s s' : Qs) (mid1 mid2 : List Ev) (h : resizeQ s mid1 mid2 = some s') :
    ∃ l, s'.served = s.served ++ l ∧ (s'.w = s.w.next (l.map Rq.toReq) ∨ (l = [] ∧ s'.w = s.w)) := by
  unfold resizeQ at h
  cases hp : progress s with
  | none => rw [hp] at h; cases h
  | some s1 =>
    obtain ⟨p1, p2, p3, p4⟩ := progress_spec hp
    have p5 : s1.w = s.w := (progL_spec _ _ _ List.nodup_range hp).2.2.2.2.2.1
    rw [hp] at h
    dsimp only at h
    cases he : evs s1 mid1 with
    | none => rw [he] at h; cases h
    | some s2 =>
      rw [he] at h
      dsimp only at h
      cases hq1 : s1.q with
      | none =>
        rw [hq1] at h
        exact ⟨[], by rw [evs_served _ _ _ h, evs_served _ _ _ he, p3, List.append_nil],
          .inr ⟨rfl, by rw [evs_w _ _ _ h, evs_w _ _ _ he, p5]⟩⟩
      | some l =>
        rw [hq1] at h
        dsimp only at h
        cases hv : serve s2 with
        | none => rw [hv] at h; cases h
        | some s3 =>
          rw [hv] at h
          dsimp only at h
          cases hb : evs s3 mid2 with
          | none => rw [hb] at h; cases h
          | some s4 =>
            rw [hb] at h
            cases h
            refine ⟨s2.queue, ?_, .inl ?_⟩
            · show s4.served = _
              rw [evs_served _ _ _ hb, (serve_spec hv).1, evs_served _ _ _ he, p3]
            · show s4.w = _
              rw [evs_w _ _ _ hb, (serve_spec hv).2.2.2.1, evs_w _ _ _ he, p5]

/-! ### Epoch -/

/-- Setting worlds one after the other: the epoch counts the changes. -/
theorem C41_set_world (gs : List Nat) (w : Nat) (e : Int) :
    (gs.foldl setWorldId (w, e)).2 = e + worldChanges w gs := by
  induction gs generalizing w e with
  | nil => simp [worldChanges]
  | cons g gs ih =>
    rw [List.foldl_cons]
    by_cases h : w = g
    · subst h
      rw [show setWorldId (w, e) w = (w, e) from if_pos rfl, ih]
      simp [worldChanges]
    · rw [show setWorldId (w, e) g = (g, e + 1) from if_neg h, ih]
      simp only [worldChanges, if_neg h]
      push_cast
      omega

/-- No change of the world, and the same epoch, or a new world with the old as
parent, and the next epoch. -/
def EpochStep (a b : Node) : Prop :=
  (b.world = a.world ∧ b.groups = a.groups ∧ b.parent = a.parent ∧ b.iepoch = a.iepoch) ∨
  (b.groups = a.groups + 1 ∧ b.parent = some a.world ∧ b.iepoch = a.iepoch + 1)

theorem epoch_newWorld {cls : PS → Option (Role × PS)} {nd nd' : Node} {p : Proc} {junk : Nat → Int}
    (h : newWorld cls nd p junk = some nd') : EpochStep nd nd' := by
  unfold newWorld at h
  split at h
  · split at h
    · cases h
    · split at h
      · cases h; exact .inr ⟨rfl, rfl, rfl⟩
      · cases h
  · cases h

/-- In the master, whatever the state and whatever arrives. -/
theorem C41_epoch_master (nd nd' : Node) (ph : Int) (reqs : List Req) (o1 o2 : List Nat)
    (junk : Nat → Int) (cmds : Nat → List Cmd)
    (h : masterResize nd ph reqs o1 o2 junk = some (nd', cmds)) : EpochStep nd nd' := by
  unfold masterResize at h
  split at h
  · cases h
  · split at h
    · split at h
      · cases h
      · split at h
        · split at h
          · cases h
          · split at h
            · cases h
            · dsimp only at h
              split at h
              · cases h
              · rename_i nd2 hm
                cases h
                unfold masterEnd at hm
                split at hm
                · split at hm
                  · split at hm
                    · cases hm; exact .inl ⟨rfl, rfl, rfl, rfl⟩
                    · exact epoch_newWorld hm
                  · cases hm
                · cases hm
        · cases h
    · cases h

/-- In the other processes, whatever the state and whatever arrives. -/
theorem C41_epoch_peer (nd nd' : Node) (ph : Int) (cmds : List Cmd) (junk : Nat → Int)
    (h : peerResize nd ph cmds junk = some nd') : EpochStep nd nd' := by
  unfold peerResize at h
  split at h
  · split at h
    · cases h; exact .inl ⟨rfl, rfl, rfl, rfl⟩
    · split at h
      · split at h
        · cases h
        · split at h
          · unfold peerEnd at h
            split at h
            · split at h
              · split at h
                · cases h; exact .inl ⟨rfl, rfl, rfl, rfl⟩
                · cases h
              · exact epoch_newWorld h
            · cases h
          · cases h
      · cases h
  · cases h

/-- Finishing a resize detaches the world from the old one, and changes neither
world nor epoch; a further resize is possible only after this. -/
theorem C41_finish (nd : Node) :
    (finish nd).parent = none ∧ (finish nd).world = nd.world ∧ (finish nd).iepoch = nd.iepoch ∧
    (finish nd).groups = nd.groups ∧
    (nd.parent ≠ none → ∀ ph reqs o1 o2 junk cmds, masterResize nd ph reqs o1 o2 junk = none ∧
      peerResize nd ph cmds junk = none) := by
  refine ⟨?_, ?_, ?_, ?_, ?_⟩
  · unfold finish; split
    · assumption
    · rfl
  · unfold finish; split <;> rfl
  · unfold finish; split <;> rfl
  · unfold finish; split <;> rfl
  · intro hp ph reqs o1 o2 junk cmds
    cases hq : nd.parent with
    | none => exact absurd hq hp
    | some g =>
      constructor
      · unfold masterResize; rw [hq]
      · unfold peerResize; rw [hq]

/-- Process 2 before, after a resize with change, and after one without: epoch,
number of groups, whether the world has a parent. -/
def C41ex.three (s s1 s2 : Sys) : List (Int × Nat × Bool) :=
  [s, s1, s2].map fun s => ((s.node 2).iepoch, (s.node 2).groups, (s.node 2).parent.isSome)

example : ((sysStart 3 C40ex.jk C40ex.jk).bind fun s => (sysResize s C40ex.r1).bind fun s1 =>
      (sysResize (sysFinish s1) { C40ex.r3 with o1 := [2, 4, 3], o2 := [2, 4, 3] }).map fun s2 =>
        C41ex.three s s1 s2) =
    some [(0, 1, false), (1, 2, true), (1, 2, false)] := by
  decide +kernel

/-! ### Where the claim is false -/

namespace C41ex

/-- Four processes, nothing requested. -/
def s0 : Qs :=
  { w := ⟨4, fun l => l < 4⟩, q := none, fs := fun _ => .idle, regd := fun fd => fd = 5, served := [] }

/-- The requests in a state: served, in the queue, waiting. -/
def show3 (s : Option Qs) : Option (List Rq × List Rq × List Rq) :=
  s.map fun s => (s.served, s.queue, s.waiting)

/-- A process joins, two are removed, one of these with a request before
initialization; a request arrives during the first resize, another one after
it. -/
def ops : List Op :=
  [.ev (.reg 7), .ev (.cut [2]), .resize [.cut [3]] [.reg 8], .ev (.reg 9), .ev (.cut [1])]

example : show3 (runQ s0 ops) =
    some ([.remove 2, .join 7, .remove 3], [.remove 1], [.join 8, .join 9]) := by decide +kernel

example : (regsOf (evsOf ops)).Nodup ∧ (∀ e ∈ evsOf ops, e.isClose = false) ∧
    (∀ fd ∈ regsOf (evsOf ops), s0.regd fd = false) := by decide

end C41ex

open C41ex

/-- A `cutoff` arriving after the requests got processed, before the resize is
done, is lost: it is neither served nor in the queue. -/
theorem C41_lost_cutoff :
    show3 (runQ s0 [.ev (.reg 7), .resize [] [.cut [3]]]) = some ([.join 7], [], []) := by
  decide +kernel

/-- With nothing requested before, it is not lost. -/
theorem C41_kept_cutoff : show3 (runQ s0 [.resize [] [.cut [3]]]) = some ([], [.remove 3], []) := by
  decide +kernel

/-- Requesting the removal of a process twice fails. -/
theorem C41_removed_twice : (runQ s0 [.ev (.cut [3]), .ev (.cut [2, 3]), .resize [] []]).isNone := by
  decide +kernel

/-- A process wanting to join which ends while the others enter the resize
makes it fail. -/
theorem C41_joiner_gone : (runQ s0 [.ev (.reg 7), .resize [.close 7] []]).isNone := by
  decide +kernel

/-- Registering twice at a connection fails. -/
theorem C41_registered_twice : (runQ s0 [.ev (.reg 7), .ev (.reg 7)]).isNone := by
  decide +kernel

/-- A `cutoff` received before initialization makes the second check for
requests fail, as the command kept is used again after being freed. -/
theorem C41_early_cutoff :
    (runQ s0 [.ev (.early 7 [2]), .resize [] []]).isSome ∧
    (runQ s0 [.ev (.early 7 [2]), .resize [] [], .resize [] []]).isNone := by
  decide +kernel

/-- It is lost if the sender closes the connection before that. -/
theorem C41_early_lost :
    show3 (runQ s0 [.ev (.early 7 [2]), .ev (.close 7), .resize [] []]) = some ([], [], []) := by
  decide +kernel

/-- There is no place for more than 100 requests. -/
theorem C41_limit (q : Option (List Rq)) (r : Rq) (h : 100 ≤ (q.getD []).length) : addReq q r = none := by
  unfold addReq maxReqs
  rw [if_neg (by omega)]

/-- The limit is reached. -/
example : (runQ s0 [.ev (.cut (List.replicate 100 3))]).isSome ∧
    (runQ s0 [.ev (.cut (List.replicate 101 3))]).isNone := by decide +kernel

/-- Worlds set by group: epochs count changes. -/
example : ([1, 1, 2, 1].foldl setWorldId (0, 5)) = (1, 8) ∧ worldChanges 0 [1, 1, 2, 1] = 3 := by decide

end Laik
