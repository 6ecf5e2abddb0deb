import Verif.Model.MpiAsyncSim
/-!
# Simulation of all processes with asynchronous communication
-/

namespace Laik.Mp

open NX

variable {β : Type}

theorem upP_same {α : Type} (f : Nat → α) (p : Nat) (v : α) : upP f p v p = v := if_pos rfl
theorem upP_ne {α : Type} (f : Nat → α) {p q : Nat} (v : α) (h : q ≠ p) : upP f p v q = f q := if_neg h

theorem upP_self {α : Type} (f : Nat → α) (p : Nat) : upP f p (f p) = f := by
  funext q
  unfold upP
  split
  · rename_i h; rw [h]
  · rfl

theorem upP_upP {α : Type} (f : Nat → α) (p : Nat) (v w : α) : upP (upP f p v) p w = upP f p w := by
  funext q
  unfold upP
  split <;> rfl

/-- `Dl p q`: receives of `q` with data from `p` delivered, not yet waited for. -/
structure Sim (c : Nat → PCtx β) (P Tl : Nat → List (CBody β)) (A : AState β) (S : XState (Nat → β) β) (Dl : Nat → Nat → List (AReq × List β)) : Prop where
  one : ∀ q, ∃ R D U W T, PSim (c q) (P q) (Tl q) (A.rem q) (S.rem q) (A.sq q) (A.rq q) (A.mem q) (S.mem q) (fun p => Dl p q) R D U W T
  chan : ∀ p q, S.chan p q = (Dl p q).map (·.2) ++ (((A.chan p).filter (fun y => y.1 = q)).map (·.2) ++
    ((A.sq p).filter (fun r => r.peer = q)).map (fun r => readMem (A.mem p) r.ptr r.len))

/-- The next action of a process. -/
theorem PSim.head {c : PCtx β} {P Tl : List (CBody β)} {arem : List (AAct β)} {srem : List (XAct (Nat → β) β)} {sq rq : List AReq} {am sm : Nat → β}
    {Dl : Nat → List (AReq × List β)} {R : List AReq} {D U : List (Nat × CBody β)} {W : List AReq} {T : List (CBody β)}
    (h : PSim c P Tl arem srem sq rq am sm Dl R D U W T) {a : AAct β} {t : List (AAct β)} (hr : arem = a :: t) :
    (∃ r R', R = r :: R' ∧ a = .irecv r ∧ t = R'.map .irecv ++ (U.map c.mainA ++ (W.map (fun r => .wait r.id) ++ T.map c.bexec))) ∨
    (∃ x U', R = [] ∧ U = x :: U' ∧ a = c.mainA x ∧ t = U'.map c.mainA ++ (W.map (fun r => .wait r.id) ++ T.map c.bexec)) ∨
    (∃ r W', R = [] ∧ U = [] ∧ W = r :: W' ∧ a = .wait r.id ∧ t = W'.map (fun r => .wait r.id) ++ T.map c.bexec) ∨
    (∃ b T', R = [] ∧ U = [] ∧ W = [] ∧ T = b :: T' ∧ a = c.bexec b ∧ t = T'.map c.bexec) := by
  have e := h.arem
  rw [hr] at e
  cases R with
  | cons r R' => cases e; exact Or.inl ⟨r, R', rfl, rfl, rfl⟩
  | nil =>
    cases U with
    | cons x U' => cases e; exact Or.inr (Or.inl ⟨x, U', rfl, rfl, rfl, rfl⟩)
    | nil =>
      cases W with
      | cons r W' => cases e; exact Or.inr (Or.inr (Or.inl ⟨r, W', rfl, rfl, rfl, rfl, rfl⟩))
      | nil =>
        cases T with
        | cons b T' => cases e; exact Or.inr (Or.inr (Or.inr ⟨b, T', rfl, rfl, rfl, rfl, rfl, rfl⟩))
        | nil => cases e

/-- Kinds of actions in the main part. -/
theorem mainA_cases (c : PCtx β) {x : Nat × CBody β} (h : OkB x.2) :
    (∃ op, x.2 = .other op ∧ op.key = none ∧ c.mainA x = .loc (fun m => (op.run (MSt.ofMem m)).mem) ∧ c.exec x.2 = .loc (fun m => (op.run (MSt.ofMem m)).mem) ∧
      irecvR c.es x = none ∧ isendR c.es x = none) ∨
    (∃ r, isendR c.es x = some r ∧ c.mainA x = .isend r ∧ c.exec x.2 = .send r.peer (fun m => readMem m r.ptr r.len)) ∨
    (∃ r, irecvR c.es x = some r ∧ c.mainA x = .wait r.id ∧ c.exec x.2 = .recv r.peer r.len (fun m vs => writeMem m r.ptr vs)) ∨
    (∃ root op s d n, x.2 = .comm (.red root op) s d n ∧ c.mainA x = .coll (collNo root op) (fun m => readMem m s (n * c.es))
        (fun m vs => if root = c.me ∨ root = -1 then writeMem m d (vs.take (n * c.es)) else m) ∧
      c.exec x.2 = .coll (collNo root op) (fun m => readMem m s (n * c.es)) (fun m vs => if root = c.me ∨ root = -1 then writeMem m d (vs.take (n * c.es)) else m) ∧
      irecvR c.es x = none ∧ isendR c.es x = none) := by
  obtain ⟨id, b⟩ := x
  cases b with
  | other op => exact Or.inl ⟨op, rfl, h, rfl, rfl, rfl, rfl⟩
  | comm k s d n =>
    cases k with
    | send q => exact Or.inr (Or.inl ⟨_, rfl, rfl, rfl⟩)
    | recv q => exact Or.inr (Or.inr (Or.inl ⟨_, rfl, rfl, rfl⟩))
    | gred i o op => exact absurd h (fun h => h)
    | red root op => exact Or.inr (Or.inr (Or.inr ⟨root, op, s, d, n, rfl, rfl, rfl, rfl, rfl⟩))

section
variable {n : Nat} {c : Nat → PCtx β} {P Tl : Nat → List (CBody β)} {cf : Nat → (Nat → List β) → Nat → List β} {A A' : AState β} {S : XState (Nat → β) β}
  {Dl : Nat → Nat → List (AReq × List β)}

theorem PSim.okB {c : PCtx β} {P Tl : List (CBody β)} {arem : List (AAct β)} {srem : List (XAct (Nat → β) β)} {sq rq : List AReq} {am sm : Nat → β}
    {Dl : Nat → List (AReq × List β)} {R : List AReq} {D U : List (Nat × CBody β)} {W : List AReq} {T : List (CBody β)}
    (h : PSim c P Tl arem srem sq rq am sm Dl R D U W T) (hP : ∀ b ∈ P, OkB b) {x : Nat × CBody β} (hx : x ∈ U) : OkB x.2 :=
  hP _ (by rw [h.bodies]; exact List.mem_append_right _ (List.mem_map_of_mem hx))

/-- A local action with the same effect on both. -/
theorem run_same {op : MOp CKey β} {e : CEnv} {am sm : Nat → β} (hk : op.key = none) (h : ∀ z, rd e (.other op) z → am z = sm z) :
    (∀ y, wr e (.other op) y = false → (op.run (MSt.ofMem am)).mem y = am y ∧ (op.run (MSt.ofMem sm)).mem y = sm y) ∧
    (∀ y, wr e (.other op) y = true → (op.run (MSt.ofMem am)).mem y = (op.run (MSt.ofMem sm)).mem y) := by
  constructor
  · intro y hy
    have hy : op.W y = false := hy
    rw [run_mem, run_mem, hy]
    exact ⟨rfl, rfl⟩
  · intro y hy
    have hy : op.W y = true := hy
    rw [run_mem, run_mem, if_pos hy, if_pos hy]
    have : op.posOf (MSt.ofMem am) = op.posOf (MSt.ofMem sm) := by unfold MOp.posOf; rw [hk]; rfl
    rw [this]
    exact op.val_local _ _ _ _ (fun z hz => h z hz) hy

/-- Change of one process which has the same actions to receive before and after. -/
theorem Sim.upd (h : Sim c P Tl A S Dl) (p : Nat) {ar : List (AAct β)} {sr : List (XAct (Nat → β) β)} {am sm : Nat → β} {R : List AReq} {D U : List (Nat × CBody β)}
    {W : List AReq} {T : List (CBody β)} (hp : PSim (c p) (P p) (Tl p) ar sr (A.sq p) (A.rq p) am sm (fun q => Dl q p) R D U W T)
    (hr : ∀ r ∈ A.sq p, readMem am r.ptr r.len = readMem (A.mem p) r.ptr r.len) :
    Sim c P Tl { A with rem := upP A.rem p ar, mem := upP A.mem p am } { S with rem := upP S.rem p sr, mem := upP S.mem p sm } Dl := by
  constructor
  · intro q
    by_cases e : q = p
    · subst e
      simp only [upP_same]
      exact ⟨R, D, U, W, T, hp⟩
    · simp only [upP_ne _ _ e]
      exact h.one q
  · intro a b
    rw [h.chan a b]
    congr 2
    apply List.map_congr_left
    intro r hr'
    by_cases e : a = p
    · subst e
      show readMem (A.mem a) r.ptr r.len = readMem (upP A.mem a am a) r.ptr r.len
      rw [upP_same]
      exact (hr r (List.mem_filter.1 hr').1).symm
    · show readMem (A.mem a) r.ptr r.len = readMem (upP A.mem p am a) r.ptr r.len
      rw [upP_ne _ _ e]

theorem Sim.updRem (h : Sim c P Tl A S Dl) (p : Nat) {ar : List (AAct β)} {R : List AReq} {D U : List (Nat × CBody β)}
    {W : List AReq} {T : List (CBody β)} {rq : List AReq} (hp : PSim (c p) (P p) (Tl p) ar (S.rem p) (A.sq p) rq (A.mem p) (S.mem p) (fun q => Dl q p) R D U W T) :
    Sim c P Tl { A with rem := upP A.rem p ar, rq := upP A.rq p rq } S Dl := by
  constructor
  · intro q
    by_cases e : q = p
    · subst e
      simp only [upP_same]
      exact ⟨R, D, U, W, T, hp⟩
    · simp only [upP_ne _ _ e]
      exact h.one q
  · exact h.chan

theorem sim_take (h : Sim c P Tl A S Dl) (p : Nat) (s1 : List AReq) (s : AReq) (s2 : List AReq) (hs : A.sq p = s1 ++ s :: s2) (hs1 : ∀ y ∈ s1, y.peer ≠ s.peer) :
    Sim c P Tl { A with sq := upP A.sq p (s1 ++ s2), chan := upP A.chan p (A.chan p ++ [(s.peer, readMem (A.mem p) s.ptr s.len)]) } S Dl := by
  constructor
  · intro q
    by_cases e : q = p
    · subst e
      simp only [upP_same]
      obtain ⟨R, D, U, W, T, hp⟩ := h.one q
      refine ⟨R, D, U, W, T, hp.sub ?_⟩
      intro r hr
      rw [hs]
      rcases List.mem_append.1 hr with hr | hr
      · exact List.mem_append_left _ hr
      · exact List.mem_append_right _ (List.mem_cons_of_mem _ hr)
    · simp only [upP_ne _ _ e]
      exact h.one q
  · intro a b
    rw [h.chan a b]
    by_cases e : a = p
    · subst e
      simp only [upP_same]
      rw [hs]
      congr 1
      simp only [List.filter_append, List.filter_cons, List.filter_nil]
      by_cases e2 : s.peer = b
      · subst e2
        have f : s1.filter (fun r => decide (r.peer = s.peer)) = [] := List.filter_eq_nil_iff.2 (fun x hx => by simpa using hs1 x hx)
        rw [f]
        simp
      · simp [e2]
    · simp only [upP_ne _ _ e]

theorem sim_deliver (hst : AStatic n c P Tl) (h : Sim c P Tl A S Dl) (p q : Nat) (c1 c2 : List (Nat × List β)) (vs : List β) (r1 : List AReq) (r : AReq) (r2 : List AReq)
    (hc : A.chan p = c1 ++ (q, vs) :: c2) (hc1 : ∀ y ∈ c1, y.1 ≠ q)
    (hr : A.rq q = r1 ++ r :: r2) (hr1 : ∀ y ∈ r1, y.peer ≠ p) (hrp : r.peer = p) (hl : vs.length = r.len) :
    ∃ Dl', Sim c P Tl { A with chan := upP A.chan p (c1 ++ c2), rq := upP A.rq q (r1 ++ r2), mem := upP A.mem q (putMem (A.mem q) r.ptr vs) } S Dl' := by
  subst hrp
  refine ⟨fun a b => if b = q then upP (fun a => Dl a q) r.peer (Dl r.peer q ++ [(r, vs)]) a else Dl a b, ?_, ?_⟩
  · intro b
    by_cases e : b = q
    · subst e
      obtain ⟨R, D, U, W, T, hp⟩ := h.one b
      rw [hr] at hp
      have hd := (hp.deliver (hst.ar b) hr1 hl).1
      simp only [upP_same, if_true]
      exact ⟨R, D, U, W, T, hd⟩
    · simp only [upP_ne _ _ e, if_neg e]
      exact h.one b
  · intro a b
    obtain ⟨R, D, U, W, T, hp⟩ := h.one q
    rw [hr] at hp
    have hd := (hp.deliver (hst.ar q) hr1 hl).2
    have third : ((A.sq a).filter (fun x => decide (x.peer = b))).map (fun x => readMem (upP A.mem q (putMem (A.mem q) r.ptr vs) a) x.ptr x.len) =
        ((A.sq a).filter (fun x => decide (x.peer = b))).map (fun x => readMem (A.mem a) x.ptr x.len) := by
      apply List.map_congr_left
      intro x hx
      by_cases e : a = q
      · subst e
        rw [upP_same]
        exact hd x (List.mem_filter.1 hx).1
      · rw [upP_ne _ _ e]
    simp only [third]
    rw [h.chan a b]
    by_cases e : a = r.peer
    · subst e
      simp only [upP_same]
      rw [hc]
      simp only [List.filter_append, List.filter_cons]
      by_cases e2 : b = q
      · subst e2
        have f : c1.filter (fun y => decide (y.1 = b)) = [] := List.filter_eq_nil_iff.2 (fun x hx => by simpa using hc1 x hx)
        rw [f]
        simp
      · simp [e2, Ne.symm e2]
    · simp only [upP_ne _ _ e]
      by_cases e2 : b = q
      · subst e2; simp
      · simp [e2]

/-- Every step corresponds to at most one step of the blocking program. -/
theorem sim_step (hst : AStatic n c P Tl) (h : Sim c P Tl A S Dl) (hs : AStep n cf A A') :
    ∃ S' Dl', (S' = S ∨ XStep n cf S S') ∧ Sim c P Tl A' S' Dl' := by
  cases hs with
  | take p s1 s s2 hs hs1 => exact ⟨S, Dl, Or.inl rfl, sim_take h p s1 s s2 hs hs1⟩
  | strict hs =>
    cases hs with
    | deliver p q c1 c2 vs r1 r r2 hc hc1 hr hr1 hrp hl =>
      obtain ⟨Dl', h'⟩ := sim_deliver hst h p q c1 c2 vs r1 r r2 hc hc1 hr hr1 hrp hl
      exact ⟨S, Dl', Or.inl rfl, h'⟩
    | meet p q s1 s s2 r1 r r2 hs hs1 hsq hc hr hr1 hrp hl =>
      have h1 := sim_take h p s1 s s2 hs (by rw [hsq]; exact hs1)
      obtain ⟨Dl', h'⟩ := sim_deliver hst h1 p q (A.chan p) [] (readMem (A.mem p) s.ptr s.len) r1 r r2
        (by rw [← hsq]; exact upP_same _ _ _) hc hr hr1 hrp (by rw [readMem_length]; exact hl)
      refine ⟨S, Dl', Or.inl rfl, ?_⟩
      have e : upP (upP A.chan p (A.chan p ++ [(s.peer, readMem (A.mem p) s.ptr s.len)])) p (A.chan p ++ []) = A.chan := by
        rw [upP_upP, List.append_nil, upP_self]
      simp only [e] at h'
      exact h'
    | loc p f t hh =>
      obtain ⟨R, D, U, W, T, hp⟩ := h.one p
      rcases hp.head hh with ⟨r, R', _, ha, _⟩ | ⟨x, U', rfl, rfl, ha, rfl⟩ | ⟨r, W', _, _, _, ha, _⟩ | ⟨b, T', rfl, rfl, rfl, rfl, ha, rfl⟩
      · cases ha
      · rcases mainA_cases (c p) (hp.okB (hst.ok p) List.mem_cons_self) with ⟨op, e1, e2, e3, e4, e5, _⟩ | ⟨r, _, e, _⟩ | ⟨r, _, e, _⟩ | ⟨_, _, _, _, _, _, e, _⟩
        · rw [e3] at ha
          cases ha
          have hrun := run_same (e := (c p).env) (am := A.mem p) (sm := S.mem p) e2 (fun z hz => hp.read_eq (hst.ar p) e5 (by rw [e1]; exact hz))
          obtain ⟨hw, hr⟩ := hp.write (hst.ar p) e5 (by rw [e1]; exact hrun.1) (by rw [e1]; exact hrun.2)
          refine ⟨_, Dl, Or.inr (XStep.sync _ _ (XRStep.loc S p (fun m => (op.run (MSt.ofMem m)).mem) (U'.map (fun x => (c p).exec x.2) ++ T.map (c p).exec) ?_)), h.upd p hw hr⟩
          rw [hp.srem, List.map_cons, e4]
          rfl
        · rw [e] at ha; cases ha
        · rw [e] at ha; cases ha
        · rw [e] at ha; cases ha
      · cases ha
      · obtain ⟨op, rfl, hk⟩ := hst.tl p b (hp.hTs b List.mem_cons_self)
        cases ha
        obtain ⟨hw, hr⟩ := hp.tail (fun m => (op.run (MSt.ofMem m)).mem)
        refine ⟨_, Dl, Or.inr (XStep.sync _ _ (XRStep.loc S p (fun m => (op.run (MSt.ofMem m)).mem) (T'.map (c p).exec) ?_)), h.upd p hw (by rw [hr]; simp)⟩
        rw [hp.srem]
        rfl
    | isend p r t hh =>
      obtain ⟨R, D, U, W, T, hp⟩ := h.one p
      rcases hp.head hh with ⟨r, R', _, ha, _⟩ | ⟨x, U', rfl, rfl, ha, rfl⟩ | ⟨r, W', _, _, _, ha, _⟩ | ⟨b, T', rfl, rfl, rfl, rfl, ha, rfl⟩
      · cases ha
      · rcases mainA_cases (c p) (hp.okB (hst.ok p) List.mem_cons_self) with ⟨op, _, _, e, _⟩ | ⟨r', e1, e2, e3⟩ | ⟨r, _, e, _⟩ | ⟨_, _, _, _, _, _, e, _⟩
        · rw [e] at ha; cases ha
        · rw [e2] at ha
          cases ha
          have hnone : irecvR (c p).es x = none := by
            obtain ⟨_, _, _, d, n, hb, _⟩ := isendR_some e1
            unfold irecvR
            rw [hb]
          have hw := hp.isend e1
          refine ⟨_, Dl, Or.inr (XStep.buf S p r.peer (fun m => readMem m r.ptr r.len) (U'.map (fun x => (c p).exec x.2) ++ T.map (c p).exec) ?_), ?_⟩
          · rw [hp.srem, List.map_cons, e3]
            rfl
          · constructor
            · intro q
              by_cases e : q = p
              · subst e
                simp only [upP_same]
                exact ⟨_, _, _, _, _, hw⟩
              · simp only [upP_ne _ _ e]
                exact h.one q
            · intro a b
              have eo : readMem (S.mem p) r.ptr r.len = readMem (A.mem p) r.ptr r.len :=
                readMem_reg (fun z hz => (hp.read_eq (hst.ar p) hnone ((isendR_rd e1 z).2 hz)).symm)
              simp only [eo]
              unfold upC
              by_cases e : a = p
              · subst e
                simp only [upP_same]
                by_cases e2 : b = r.peer
                · subst e2
                  rw [if_pos ⟨trivial, rfl⟩, h.chan a r.peer]
                  simp
                · rw [if_neg (fun hh => e2 hh.2), h.chan a b]
                  simp [Ne.symm e2]
              · rw [if_neg (fun hh => e hh.1), h.chan a b]
                simp only [upP_ne _ _ e]
        · rw [e] at ha; cases ha
        · rw [e] at ha; cases ha
      · cases ha
      · obtain ⟨op, rfl, hk⟩ := hst.tl p b (hp.hTs b List.mem_cons_self)
        cases ha
    | irecv p r t hh =>
      obtain ⟨R, D, U, W, T, hp⟩ := h.one p
      rcases hp.head hh with ⟨r', R', rfl, ha, rfl⟩ | ⟨x, U', rfl, rfl, ha, rfl⟩ | ⟨r, W', _, _, _, ha, _⟩ | ⟨b, T', rfl, rfl, rfl, rfl, ha, rfl⟩
      · cases ha
        exact ⟨S, Dl, Or.inl rfl, h.updRem p hp.irecv⟩
      · rcases mainA_cases (c p) (hp.okB (hst.ok p) List.mem_cons_self) with ⟨op, _, _, e, _⟩ | ⟨r', _, e, _⟩ | ⟨r, _, e, _⟩ | ⟨_, _, _, _, _, _, e, _⟩ <;>
        · rw [e] at ha; cases ha
      · cases ha
      · obtain ⟨op, rfl, hk⟩ := hst.tl p b (hp.hTs b List.mem_cons_self)
        cases ha
    | wait p id t hh hws hwr =>
      obtain ⟨R, D, U, W, T, hp⟩ := h.one p
      rcases hp.head hh with ⟨r', R', rfl, ha, rfl⟩ | ⟨x, U', rfl, rfl, ha, rfl⟩ | ⟨r, W', rfl, rfl, rfl, ha, rfl⟩ | ⟨b, T', rfl, rfl, rfl, rfl, ha, rfl⟩
      · cases ha
      · rcases mainA_cases (c p) (hp.okB (hst.ok p) List.mem_cons_self) with ⟨op, _, _, e, _⟩ | ⟨r', _, e, _⟩ | ⟨r, e1, e2, e3⟩ | ⟨_, _, _, _, _, _, e, _⟩
        · rw [e] at ha; cases ha
        · rw [e] at ha; cases ha
        · rw [e2] at ha
          cases ha
          obtain ⟨vs, l, hd, hl, hw⟩ := hp.waitR e1 (fun hm => hwr r hm rfl)
          have hd : Dl r.peer p = (r, vs) :: l := hd
          refine ⟨_, fun a b => if b = p then upP (fun a => Dl a p) r.peer l a else Dl a b, Or.inr (XStep.sync _ _ (XRStep.recv S r.peer p r.len (fun m vs => writeMem m r.ptr vs)
            (U'.map (fun x => (c p).exec x.2) ++ T.map (c p).exec) vs (l.map (·.2) ++ (((A.chan r.peer).filter (fun y => y.1 = p)).map (·.2) ++
              ((A.sq r.peer).filter (fun r => r.peer = p)).map (fun x => readMem (A.mem r.peer) x.ptr x.len))) ?_ ?_ hl)), ?_⟩
          · rw [hp.srem, List.map_cons, e3]
            rfl
          · rw [h.chan r.peer p, hd]
            rfl
          · constructor
            · intro q
              by_cases e : q = p
              · subst e
                simp only [upP_same, if_true]
                exact ⟨_, _, _, _, _, hw⟩
              · simp only [upP_ne _ _ e, if_neg e]
                exact h.one q
            · intro a b
              unfold upC
              by_cases e : b = p
              · subst e
                by_cases e2 : a = r.peer
                · subst e2
                  simp only [upP_same, if_true, and_self]
                · simp only [upP_ne _ _ e2, if_true]
                  rw [if_neg (fun hh => e2 hh.1), h.chan a b]
              · simp only [if_neg e]
                rw [if_neg (fun hh => e hh.2), h.chan a b]
        · rw [e] at ha; cases ha
      · cases ha
        have hw := hp.waitS hws
        have := h.updRem p hw
        rw [upP_self] at this
        exact ⟨S, Dl, Or.inl rfl, this⟩
      · obtain ⟨op, rfl, hk⟩ := hst.tl p b (hp.hTs b List.mem_cons_self)
        cases ha
    | coll k out inn t hn hh =>
      -- all processes have the collective as next action
      have key : ∀ p < n, (∃ t', S.rem p = .coll k (out p) (inn p) :: t' ∧ out p (A.mem p) = out p (S.mem p) ∧ ∀ v, ∃ R D U W T,
          PSim (c p) (P p) (Tl p) (t p) t' (A.sq p) (A.rq p) (inn p (A.mem p) v) (inn p (S.mem p) v) (fun q => Dl q p) R D U W T ∧
          ∀ r ∈ A.sq p, readMem (inn p (A.mem p) v) r.ptr r.len = readMem (A.mem p) r.ptr r.len) := by
        intro p hp'
        obtain ⟨R, D, U, W, T, hp⟩ := h.one p
        rcases hp.head (hh p hp') with ⟨r', R', rfl, ha, _⟩ | ⟨x, U', rfl, rfl, ha, ht⟩ | ⟨r, W', rfl, rfl, rfl, ha, _⟩ | ⟨b, T', rfl, rfl, rfl, rfl, ha, _⟩
        · cases ha
        · rcases mainA_cases (c p) (hp.okB (hst.ok p) List.mem_cons_self) with ⟨op, _, _, e, _⟩ | ⟨r', _, e, _⟩ | ⟨r, _, e, _⟩ | ⟨root, op, s, d, m, e1, e2, e3, e4, e5⟩
          · rw [e] at ha; cases ha
          · rw [e] at ha; cases ha
          · rw [e] at ha; cases ha
          · rw [e2] at ha
            injection ha with a1 a2 a3
            subst a1
            refine ⟨U'.map (fun x => (c p).exec x.2) ++ T.map (c p).exec, ?_, ?_, ?_⟩
            · rw [hp.srem, List.map_cons, e3, a2, a3]
              rfl
            · rw [a2]
              apply readMem_congr
              intro i hi
              refine hp.read_eq (hst.ar p) e4 ?_
              rw [e1]
              exact ⟨rfl, by omega, by show s + i < s + m * (c p).es; omega⟩
            · intro v
              have hout : (c p).env.isOut (.red root op) = decide (root = (c p).me ∨ root = -1) := by
                rw [Bool.eq_iff_iff]
                simp only [CEnv.isOut, PCtx.env, Bool.or_eq_true, beq_iff_eq, decide_eq_true_eq]
              have hwr : ∀ y, wr (c p).env x.2 y = (decide (root = (c p).me ∨ root = -1) && decide (d ≤ y ∧ y < d + m * (c p).es)) := by
                intro y
                rw [e1]
                show ((c p).env.isOut (.red root op) && _) = _
                rw [hout]
                rfl
              have hwm : ∀ (mm : Nat → β) y, inn p mm v y = if wr (c p).env x.2 y = true then (v.take (m * (c p).es)).getD (y - d) (mm y) else mm y := by
                intro mm y
                rw [a3, hwr]
                beta_reduce
                by_cases c1 : root = (c p).me ∨ root = -1
                · rw [if_pos c1]
                  simp only [c1, decide_true, Bool.true_and, decide_eq_true_eq]
                  unfold writeMem
                  by_cases c2 : d ≤ y
                  · rw [if_pos c2]
                    by_cases c3 : y < d + m * (c p).es
                    · rw [if_pos ⟨c2, c3⟩]
                    · rw [if_neg (by omega), List.getD_eq_getElem?_getD, List.getElem?_eq_none (by rw [List.length_take]; omega)]
                      rfl
                  · rw [if_neg c2, if_neg (by omega)]
                · rw [if_neg c1]
                  simp [c1]
              obtain ⟨hw, hr⟩ := hp.write (hst.ar p) e4 (am' := inn p (A.mem p) v) (sm' := inn p (S.mem p) v)
                (fun y hy => by rw [hwm, hwm, hy]; exact ⟨rfl, rfl⟩)
                (fun y hy => by
                  rw [hwm, hwm, if_pos hy, if_pos hy]
                  congr 1
                  apply hp.mem
                  intro q z hz hzy
                  have := (hp.next_safe (hst.ar p) hz (by rw [e4]; simp) hzy).2
                  rw [hy] at this
                  cases this)
              rw [ht]
              exact ⟨_, _, _, _, _, hw, hr⟩
        · cases ha
        · obtain ⟨op, rfl, hk⟩ := hst.tl p b (hp.hTs b List.mem_cons_self)
          cases ha
      have eout : (fun q => out q (A.mem q)) = fun q => out q (S.mem q) := by
        funext q
        by_cases cq : q < n
        · exact (key q cq).choose_spec.2.1
        · obtain ⟨R, D, U, W, T, hp⟩ := h.one q
          have h0 := hp.split
          rw [(hst.out q (by omega)).1] at h0
          have hU : U = [] := (List.append_eq_nil_iff.1 h0.symm).2
          subst hU
          rw [hp.dl_nil.2.2.2]
      refine ⟨_, Dl, Or.inr (XStep.sync _ _ (XRStep.coll S k out inn (fun p => (S.rem p).tail) hn (fun p hp => ?_))), ?_⟩
      · obtain ⟨t', e, _⟩ := key p hp
        rw [e]
        rfl
      · constructor
        · intro q
          by_cases cq : q < n
          · obtain ⟨t', e, _, h3⟩ := key q cq
            obtain ⟨R, D, U, W, T, h3, _⟩ := h3 (cf k (fun q => out q (A.mem q)) q)
            simp only [if_pos cq]
            refine ⟨R, D, U, W, T, ?_⟩
            rw [e, List.tail_cons, ← eout]
            exact h3
          · simp only [if_neg cq]
            exact h.one q
        · intro a b
          rw [show ∀ S' : XState (Nat → β) β, S'.chan = S.chan → S'.chan a b = S.chan a b from fun S' e => by rw [e]]
          · rw [h.chan a b]
            congr 2
            apply List.map_congr_left
            intro r hr
            by_cases cq : a < n
            · simp only [if_pos cq]
              obtain ⟨t', e, _, h3⟩ := key a cq
              obtain ⟨R, D, U, W, T, _, h4⟩ := h3 (cf k (fun q => out q (A.mem q)) a)
              exact (h4 r (List.mem_filter.1 hr).1).symm
            · simp only [if_neg cq]
          · rfl

end
end Laik.Mp
