import Verif.Model.TcpResizePeer
import Mathlib.Data.List.Nodup
/-!
# Newcomers in a resize and at startup
-/

namespace Laik.Rsz

theorem frs_len {role : Nat → Role} {N t : Nat} (ht : t < N) (hr : role t = .fresh) :
    (frs role N t).length + 1 = ((List.range N).filter fun l => role l = .fresh).length := by
  have h1 : frs role N t = (((List.range N).filter fun l => decide (role l = .fresh)).erase t) := by
    rw [List.Nodup.erase_eq_filter (List.Nodup.filter _ List.nodup_range), List.filter_filter]
    unfold frs
    apply List.filter_congr
    intro l _
    by_cases h : l = t <;> simp [h]
  have hm : t ∈ (List.range N).filter fun l => decide (role l = .fresh) := by simp [ht, hr]
  rw [h1, List.length_erase_of_mem hm]
  have := List.length_pos_of_mem hm
  omega

/-- A newcomer told about all processes. -/
theorem newcomer_recv {role : Nat → Role} {N t : Nat} (ph ep : Int) (ht : t < N) (hr : role t = .fresh)
    (hN : N ≤ maxPeers) (h0 : role 0 ≠ .gone) (hl : ∀ l, role l = .leave → 0 < l)
    (hlast : role (N - 1) = .fresh) :
    ∃ p, recvAll freshProc (roleCmds role N ph ep t) = some p ∧ p.mylid = some t ∧ p.n = N ∧
      p.mystate = .ready ∧ p.phase = ph ∧ p.epoch = ep ∧
      p.peers = (olds role N).length + (frs role N t).length ∧
      (∀ l, N ≤ l → p.known l = false) ∧
      (∀ l < N, p.st l = if l = t then .ready else match role l with
        | .gone => .invalid
        | .stay => .inResize
        | .fresh => .noConnect
        | .leave => .inResizeRemove) := by
  -- own LID
  have r0 : recv freshProc (.id t false) = some { freshProc with
      n := t + 1, mystate := .regAccepted, mylid := some t,
      st := upd freshProc.st t .regAccepted, known := upd freshProc.known t true } := by
    simp only [recv]
    rw [if_neg (fun h => h (by omega))]
    simp [freshProc]
  generalize hp0 : ({ freshProc with
      n := t + 1, mystate := .regAccepted, mylid := some t,
      st := upd freshProc.st t .regAccepted, known := upd freshProc.known t true } : Proc) = p0 at r0
  have l0 : p0.mylid = some t := by rw [← hp0]
  have m0 : p0.mystate = .regAccepted := by rw [← hp0]
  have k0 : ∀ l, l ≠ t → p0.known l = false := by
    intro l h
    rw [← hp0]
    simp [upd, h, freshProc]
  have st0 : ∀ l, l ≠ t → l ≠ 0 → p0.st l = .invalid := by
    intro l h h'
    rw [← hp0]
    simp [upd, h, h', freshProc]
  -- old ones
  have r1 := recv_ids (new := false) (olds role N) p0 t l0 (.inl m0) olds_nodup (by
    intro l hl
    obtain ⟨a1, a2⟩ := mem_olds.1 hl
    have : l ≠ t := fun h => by rw [h, hr] at a2; simp at a2
    exact ⟨by omega, this, k0 l this⟩)
  generalize hp1 : afterIds p0 false (olds role N) = p1 at r1
  have l1 : p1.mylid = some t := by rw [← hp1]; exact l0
  have m1 : p1.mystate = .regAccepted := by rw [← hp1]; exact m0
  have r2 := recv_ids (new := true) (frs role N t) p1 t l1 (.inl m1) frs_nodup (by
    intro l hl
    obtain ⟨a1, a2, a3⟩ := mem_frs.1 hl
    refine ⟨by omega, a3, ?_⟩
    rw [← hp1]
    have : ¬ l ∈ olds role N := fun h => by have := (mem_olds.1 h).2; rw [a2] at this; simp at this
    simp [afterIds, this, k0 l a3])
  generalize hp2 : afterIds p1 true (frs role N t) = p2 at r2
  have l2 : p2.mylid = some t := by rw [← hp2]; exact l1
  have m2 : p2.mystate = .regAccepted := by rw [← hp2]; exact m1
  have n2 : p2.n = N := by
    rw [← hp2, ← hp1, ← hp0]
    simp only [afterIds]
    apply Nat.le_antisymm
    · refine foldmax_le _ _ _ (foldmax_le _ _ _ (by omega) fun l hl => (mem_olds.1 hl).1) fun l hl => ?_
      exact (mem_frs.1 hl).1
    · by_cases h : t = N - 1
      · refine Nat.le_trans ?_ (Nat.le_trans (le_foldmax _ _) (le_foldmax _ _))
        omega
      · have := mem_foldmax (frs role N t)
          (List.foldl (fun n l => max n (l + 1)) (t + 1) (olds role N)) (N - 1)
          (mem_frs.2 ⟨by omega, hlast, fun h' => h h'.symm⟩)
        omega
  have s2 : ∀ l < N, l ≠ t → p2.st l = match role l with
        | .gone => .invalid
        | .stay => .inResize
        | .fresh => .noConnect
        | .leave => .inResize := by
    intro l hl hlt
    rw [← hp2]
    simp only [afterIds]
    have hf : l ∈ frs role N t ↔ role l = .fresh := by
      rw [mem_frs]; exact ⟨fun h => h.2.1, fun h => ⟨hl, h, hlt⟩⟩
    have ho : l ∈ olds role N ↔ (role l = .stay ∨ role l = .leave) := by
      rw [mem_olds]; exact ⟨fun h => h.2, fun h => ⟨hl, h⟩⟩
    cases hrl : role l with
    | fresh => rw [if_pos (hf.2 hrl)]; rfl
    | gone =>
      rw [if_neg (fun h => by have := hf.1 h; rw [hrl] at this; cases this), ← hp1]
      simp only [afterIds]
      rw [if_neg (fun h => by have := ho.1 h; rw [hrl] at this; simp at this)]
      exact st0 l hlt (fun h => h0 (h ▸ hrl))
    | stay =>
      rw [if_neg (fun h => by have := hf.1 h; rw [hrl] at this; cases this), ← hp1]
      simp only [afterIds]
      rw [if_pos (ho.2 (.inl hrl))]; rfl
    | leave =>
      rw [if_neg (fun h => by have := hf.1 h; rw [hrl] at this; cases this), ← hp1]
      simp only [afterIds]
      rw [if_pos (ho.2 (.inr hrl))]; rfl
  have k2 : ∀ l, N ≤ l → p2.known l = false := by
    intro l hl
    rw [← hp2, ← hp1]
    have a1 : ¬ l ∈ olds role N := fun h => by have := (mem_olds.1 h).1; omega
    have a2 : ¬ l ∈ frs role N t := fun h => by have := (mem_frs.1 h).1; omega
    simp [afterIds, a1, a2, k0 l (by omega)]
  have pe2 : p2.peers = (olds role N).length + (frs role N t).length := by
    rw [← hp2, ← hp1, ← hp0]
    simp [afterIds, freshProc]
  -- leaving ones
  have r3 := recv_back (lvs role N) p2 (.inl m2) lvs_nodup (by
      intro l hl'
      obtain ⟨a1, a2⟩ := mem_lvs.1 hl'
      refine ⟨hl l a2, by omega, ?_⟩
      rw [s2 l a1 (fun h => by rw [h, hr] at a2; cases a2), a2]
      exact .inl rfl)
  generalize hp3 : afterBack p2 (lvs role N) = p3 at r3
  have l3 : p3.mylid = some t := by rw [← hp3]; exact l2
  have m3 : p3.mystate = .regAccepted := by
    rw [← hp3]
    simp only [afterBack, l2, Option.any_some]
    rw [if_neg]
    · exact m2
    · intro hh
      have := (mem_lvs.1 (of_decide_eq_true hh)).2
      rw [hr] at this; cases this
  have s3 : ∀ l < N, l ≠ t → p3.st l = match role l with
        | .gone => .invalid
        | .stay => .inResize
        | .fresh => .noConnect
        | .leave => .inResizeRemove := by
    intro l hl' hlt
    rw [← hp3]
    simp only [afterBack]
    cases hrl : role l with
    | leave => rw [if_pos (mem_lvs.2 ⟨hl', hrl⟩)]
    | gone => rw [if_neg (fun h => by have := (mem_lvs.1 h).2; rw [hrl] at this; cases this), s2 l hl' hlt, hrl]
    | stay => rw [if_neg (fun h => by have := (mem_lvs.1 h).2; rw [hrl] at this; cases this), s2 l hl' hlt, hrl]
    | fresh => rw [if_neg (fun h => by have := (mem_lvs.1 h).2; rw [hrl] at this; cases this), s2 l hl' hlt, hrl]
  have r4 : recvAll p3 [.getready, .phase ph ep] =
      some { p3 with mystate := .ready, st := upd p3.st t .ready, phase := ph, epoch := ep } := by
    simp [recvAll, recv, m3, l3]
  refine ⟨{ p3 with mystate := .ready, st := upd p3.st t .ready, phase := ph, epoch := ep },
    ?_, l3, ?_, rfl, rfl, rfl, ?_, ?_, ?_⟩
  · unfold roleCmds
    rw [if_pos hr, List.cons_append, List.cons_append, List.cons_append, recvAll, r0, Option.bind_some,
      recvAll_append, recvAll_append, recvAll_append]
    rw [r1, Option.bind_some]
    change ((recvAll p1 ((frs role N t).map (.id · true))).bind _).bind _ = _
    rw [r2, Option.bind_some]
    change (recvAll p2 ((lvs role N).map .backedout)).bind _ = _
    rw [r3, Option.bind_some]
    exact r4
  · show p3.n = N
    rw [← hp3]; exact n2
  · show p3.peers = _
    rw [← hp3]; exact pe2
  · show ∀ l, N ≤ l → p3.known l = false
    rw [← hp3]; exact k2
  · intro l hl'
    dsimp only
    unfold upd
    by_cases h : l = t
    · rw [if_pos h, if_pos h]
    · rw [if_neg h, if_neg h]; exact s3 l hl' h

/-- Peer states in a newcomer before the world is created. -/
def newcSt (role : Nat → Role) (l : Nat) : PS :=
  match role l with
  | .gone => .dead
  | .stay => .inResize
  | .fresh => .noConnect
  | .leave => .inResizeRemove

/-- States and counters in a newcomer. -/
theorem newcomer_start {role : Nat → Role} {N t : Nat} (ph ep : Int) (ht : t < N) (hr : role t = .fresh)
    (hN : N ≤ maxPeers) (h0 : role 0 ≠ .gone) (hl : ∀ l, role l = .leave → 0 < l)
    (hlast : role (N - 1) = .fresh) (hph : ph ≠ -1) (junk junk2 : Nat → Int) :
    ∃ p dead st, newcomer (roleCmds role N ph ep t) junk junk2 = newcomerEnd p t dead st junk junk2 ∧
      p.mylid = some t ∧ p.n = N ∧ p.mystate = .ready ∧ p.epoch = ep ∧
      p.peers + 1 = (olds role N).length + ((List.range N).filter fun l => role l = .fresh).length ∧
      (∀ l, N ≤ l → p.known l = false) ∧ (∀ l < N, st l = newcSt role l) := by
  obtain ⟨p, h1, h2, h3, h4, h5, h6, h7, h8, h9⟩ := newcomer_recv ph ep ht hr hN h0 hl hlast
  refine ⟨p, ((List.range p.n).filter fun l => p.st l = .invalid).length,
    upd (fun l => if l < p.n ∧ p.st l = .invalid then .dead else p.st l) t .noConnect,
    ?_, h2, h3, h4, h6, ?_, h8, ?_⟩
  · unfold newcomer
    rw [h1]
    dsimp only
    rw [if_pos ⟨h4, by rw [h5]; exact hph⟩, h2]
    rfl
  · rw [h7, ← frs_len ht hr]; omega
  · intro l hl'
    unfold upd
    by_cases h : l = t
    · rw [if_pos h, newcSt, h, hr]
    · rw [if_neg h, h3]
      dsimp only
      rw [h9 l hl', if_neg h, newcSt]
      cases role l <;> simp [hl']

theorem newc_cnt {role : Nat → Role} {N : Nat} {st : Nat → PS} (h : ∀ l < N, st l = newcSt role l) :
    ((List.range N).filter fun l => st l = .noConnect).length =
      ((List.range N).filter fun l => role l = .fresh).length ∧
    ((List.range N).filter fun l => st l = .inResizeRemove).length =
      ((List.range N).filter fun l => role l = .leave).length ∧
    ((List.range N).filter fun l => st l = .inResize ∨ st l = .inResizeRemove).length =
      (olds role N).length := by
  refine ⟨?_, ?_, ?_⟩
  all_goals
    first | unfold olds | skip
    congr 1
    apply List.filter_congr
    intro l hl
    rw [h l (List.mem_range.1 hl), newcSt]
    cases role l <;> simp

/-- A newcomer in a resize, if the world does not get smaller. -/
theorem newcomer_spec {w : World} {ep : Int} {k t : Nat} {reqs : List Req} {ph : Int}
    (junk junk2 : Nat → Int) (hv : w.Valid reqs) (h0 : 0 < w.n) (ha : w.alive 0 = true)
    (ht : w.n ≤ t) (ht' : t < w.n + joins reqs) (hph : ph ≠ -1) (hk : 1 ≤ k)
    (hgrow : w.live.length ≤ (w.next reqs).live.length) :
    ∃ nd, newcomer (roleCmds (w.role reqs) (w.n + joins reqs) ph (ep + 1) t) junk junk2 = some nd ∧
      After w reqs ep k t nd := by
  have hr := role_new ht ht'
  have hr0 := role_zero hv h0 ha
  obtain ⟨p, dead, st, h1, h2, h3, h4, h5, h6, h7, h8⟩ := newcomer_start (role := w.role reqs) ph (ep + 1) ht' hr
    hv.2.2 (by rw [hr0]; decide) (fun l h => (rms_bound hv h).1) (role_new (by omega) (by omega)) hph junk junk2
  obtain ⟨c1, c2, c3⟩ := newc_cnt h8
  have hsplit := len_split (w.role reqs) (w.n + joins reqs)
  have hold : olds (w.role reqs) (w.n + joins reqs) = w.live := olds_role w reqs
  have hmem := members_role w reqs
  have hpos : 0 < (olds (w.role reqs) (w.n + joins reqs)).length :=
    List.length_pos_of_mem (mem_olds.2 ⟨by omega, .inl hr0⟩)
  have hws : p.peers + 1 - ((List.range (w.n + joins reqs)).filter fun l => decide (st l = .inResizeRemove)).length =
      (members (w.role reqs) (w.n + joins reqs)).length := by
    rw [h6, c2]; omega
  have hcls : ∀ l < w.n + joins reqs, clsNew (st l) = some (w.role reqs l, newSt (w.role reqs) l) := by
    intro l hl
    rw [h8 l hl, newcSt, newSt]
    cases w.role reqs l <;> rfl
  have hgone : ∀ l < w.n + joins reqs, w.role reqs l = .gone → newSt (w.role reqs) l = st l := by
    intro l hl h
    rw [h8 l hl, newcSt, newSt, h]
  have hom : (olds (w.role reqs) (w.n + joins reqs)).length ≤ (members (w.role reqs) (w.n + joins reqs)).length := by
    rw [hold, hmem]; exact hgrow
  obtain ⟨b, b1, b2⟩ := build_spec (w := none) hcls hgone (fun g h => by cases h) hom (Nat.le_refl _) junk junk2
    (w.n + joins reqs) (Nat.le_refl _)
  obtain ⟨b0, b3, b4⟩ := build_spec (w := none) hcls hgone (fun g h => by cases h) hom (Nat.le_refl _) junk junk2
    t (by omega)
  have hall : (List.range (w.n + joins reqs)).all (fun l => decide (st l = .dead ∨ st l = .noConnect ∨
      st l = .inResize ∨ st l = .inResizeRemove)) = true := by
    rw [List.all_eq_true]
    intro l hl
    rw [h8 l (List.mem_range.1 hl), newcSt]
    cases w.role reqs l <;> simp
  have hres : newcomerEnd p t dead st junk junk2 =
      some { p := { p with st := b.st, deadPeers := dead }
             world := { size := (members (w.role reqs) (w.n + joins reqs)).length,
                        maxsize := (members (w.role reqs) (w.n + joins reqs)).length,
                        myid := b0.i2, mem := b.mem }
             parent := some { size := (olds (w.role reqs) (w.n + joins reqs)).length,
                              maxsize := (olds (w.role reqs) (w.n + joins reqs)).length, myid := -1, mem := b.par }
             iepoch := p.epoch, groups := 2 } := by
    unfold newcomerEnd
    rw [h3]
    dsimp only
    rw [hws, c1, c3, if_pos ⟨hall, h6⟩, if_neg (by omega), b1, b3]
    dsimp only
    rw [if_pos ⟨b2.i1, b2.i2⟩]
  refine ⟨_, by rw [h1]; exact hres, ?_⟩
  constructor
  · exact h2
  · exact h3
  · rw [newSt, hr]; exact h4
  · intro l hl
    show b.st l = _
    rw [b2.st l, if_pos hl]
  · exact h7
  · constructor
    · show (List.range (members (w.role reqs) (w.n + joins reqs)).length).map b.mem = _
      rw [← b2.i2]; exact b2.loc
    · show (List.range (members (w.role reqs) (w.n + joins reqs)).length).map
        (fun j => b.mem (2 * (members (w.role reqs) (w.n + joins reqs)).length + j)) = _
      have := b2.top
      rw [b2.i2] at this
      exact this
    · show (List.range (olds (w.role reqs) (w.n + joins reqs)).length).map
        (fun j => b.mem ((members (w.role reqs) (w.n + joins reqs)).length + j)) = _
      rw [← b2.i1]; exact b2.frp
    · rw [hr, if_neg (by decide), members_idxOf ht' (.inr hr), ← b4.i2]
  · refine ⟨_, rfl, ?_⟩
    show (List.range (olds (w.role reqs) (w.n + joins reqs)).length).map b.par = _
    rw [← hold, ← b2.i1]; exact b2.par rfl
  · exact h5
  · show 2 ≤ k + 1
    omega
  · intro h; omega
  · intro h; omega

/-- The world at startup. -/
def startW (ws : Nat) : World := { n := ws, alive := fun _ => true }

theorem startW_live (ws : Nat) : (startW ws).live = List.range ws := by
  simp [World.live, startW]

/-- Other processes at startup. -/
theorem start_spec {ws t : Nat} (junk junk2 : Nat → Int) (ht0 : t ≠ 0) (ht : t < ws) (hws : ws ≤ maxPeers) :
    ∃ nd, newcomer (startCmds ws t) junk junk2 = some nd ∧ NodeOK (startW ws) 0 1 t nd := by
  have hcmd : startCmds ws t = roleCmds (fun _ => .fresh) ws 0 0 t := by
    simp [startCmds, roleCmds, olds]
  obtain ⟨p, dead, st, h1, h2, h3, h4, h5, h6, h7, h8⟩ := newcomer_start (role := fun _ => .fresh) (ph := 0)
    (ep := 0) ht rfl hws (by decide) (by intro l h; cases h) rfl (by decide) junk junk2
  obtain ⟨c1, c2, c3⟩ := newc_cnt h8
  have hold : olds (fun _ => Role.fresh) ws = [] := by simp [olds]
  have hfr : ((List.range ws).filter fun l => decide ((fun _ => Role.fresh) l = Role.fresh)).length = ws := by simp
  have hlv : ((List.range ws).filter fun l => decide ((fun _ => Role.fresh) l = Role.leave)).length = 0 := by simp
  rw [hold] at h6 c3
  rw [hfr] at h6 c1
  rw [hlv] at c2
  have hall : (List.range ws).all (fun l => decide (st l = .dead ∨ st l = .noConnect ∨
      st l = .inResize ∨ st l = .inResizeRemove)) = true := by
    rw [List.all_eq_true]
    intro l hl
    rw [h8 l (List.mem_range.1 hl), newcSt]
    simp
  simp only [List.length_nil] at h6 c3
  have hpe : p.peers + 1 = ws := by omega
  have hres : newcomerEnd p t dead st junk junk2 =
      some { p := { p with st := fun l => if l < ws then .ready else st l, deadPeers := dead }
             world := { size := ws, maxsize := ws, myid := t,
                        mem := fun k => if k < ws then k else junk k }
             parent := none, iepoch := p.epoch, groups := 1 } := by
    unfold newcomerEnd
    rw [h3]
    dsimp only
    rw [c1, c2, c3, if_pos ⟨hall, h6⟩, if_pos rfl, hpe]
    rfl
  refine ⟨_, by rw [hcmd, h1]; exact hres, ?_⟩
  constructor
  · exact h2
  · exact h3
  · exact h4
  · intro l hl _
    simp only [startW] at hl ⊢
    rw [if_pos hl, if_pos trivial]
  · exact h7
  · rw [startW_live]
    show (List.range ws).map (fun k => if k < ws then (k : Int) else junk k) = _
    apply List.map_congr_left
    intro l hl
    rw [if_pos (List.mem_range.1 hl)]; rfl
  · rw [startW_live]
    show (t : Int) = _
    have := List.Nodup.idxOf_getElem (List.nodup_range (n := ws)) t (by simpa using ht)
    rw [List.getElem_range] at this
    rw [this]
  · rfl
  · exact h5
  · exact Nat.le_refl _
  · intro h; exact absurd h ht0
  · intro h; exact absurd h ht0

end Laik.Rsz
