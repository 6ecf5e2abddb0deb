import Verif.Model.MpiAsyncShape
import Verif.Model.MpiSplitWalk
import Mathlib.Data.List.Nodup
import Mathlib.Data.List.Pairwise
/-!
# Executions with asynchronous communication follow blocking executions

If no action changes the memory of a send done before, and no action before a
receive uses the memory it writes, every execution with asynchronous
communication corresponds to an execution of the blocking program.
-/

namespace Laik.Mp

open NX

variable {β : Type}

def isSendB : CBody β → Bool
  | .comm (.send _) _ _ _ => true
  | _ => false

def isRecvB : CBody β → Bool
  | .comm (.recv _) _ _ _ => true
  | _ => false

/-- For action `a` before `b`: `b` does not change what `a` sends, and `a` does not
use the memory into which `b` receives. -/
def AR (e : CEnv) (a b : CBody β) : Prop :=
  (isSendB a = true → ∀ x, rd e a x → wr e b x = false) ∧ (isRecvB b = true → ∀ x, wr e b x = true → ¬ rd e a x ∧ wr e a x = false)

/-- Actions without group reductions, local operations without communication. -/
def OkB (b : CBody β) : Prop :=
  match b with
  | .comm (.gred _ _ _) _ _ _ => False
  | .comm _ _ _ _ => True
  | .other op => op.key = none

def OkL (b : CBody β) : Prop := ∃ op, b = .other op ∧ op.key = none

structure AStatic (n : Nat) (c : Nat → PCtx β) (P T : Nat → List (CBody β)) : Prop where
  ar : ∀ p, (P p).Pairwise (AR (c p).env)
  ok : ∀ p, ∀ b ∈ P p, OkB b
  tl : ∀ p, ∀ b ∈ T p, OkL b
  out : ∀ p, n ≤ p → P p = [] ∧ T p = []

/-! ### Requests -/

theorem numGo_snd (l : List (CBody β)) : ∀ id, (numGo id l).map (·.2) = l := by
  induction l with
  | nil => intro id; rfl
  | cons b l ih => intro id; rw [numGo, List.map_cons, ih]

theorem numGo_id (l : List (CBody β)) : ∀ id, ∀ x ∈ numGo id l, id ≤ x.1 := by
  induction l with
  | nil => intro id x hx; cases hx
  | cons b l ih =>
    intro id x hx
    rcases List.mem_cons.1 hx with rfl | hx
    · exact Nat.le_refl _
    · have := ih _ x hx
      split at this <;> omega

/-- Different sends and receives have different numbers. -/
theorem numGo_ids (l : List (CBody β)) : ∀ id, (numGo id l).Pairwise (fun x y => isP2p x.2 = true → x.1 < y.1) := by
  induction l with
  | nil => intro id; exact List.Pairwise.nil
  | cons b l ih =>
    intro id
    rw [numGo, List.pairwise_cons]
    refine ⟨?_, ih _⟩
    intro y hy hp
    have hp : isP2p b = true := hp
    rw [hp] at hy
    exact numGo_id l _ y hy

theorem irecvR_some {es : Nat} {x : Nat × CBody β} {r : AReq} (h : irecvR es x = some r) :
    isP2p x.2 = true ∧ isRecvB x.2 = true ∧ r.id = x.1 ∧ (∃ s n, x.2 = .comm (.recv r.peer) s r.ptr n ∧ r.len = n * es) := by
  obtain ⟨id, b⟩ := x
  cases b with
  | other op => cases h
  | comm k s d n => cases k <;> first | (cases h; exact ⟨rfl, rfl, rfl, _, _, rfl, rfl⟩) | cases h

theorem isendR_some {es : Nat} {x : Nat × CBody β} {r : AReq} (h : isendR es x = some r) :
    isP2p x.2 = true ∧ isSendB x.2 = true ∧ r.id = x.1 ∧ (∃ d n, x.2 = .comm (.send r.peer) r.ptr d n ∧ r.len = n * es) := by
  obtain ⟨id, b⟩ := x
  cases b with
  | other op => cases h
  | comm k s d n => cases k <;> first | (cases h; exact ⟨rfl, rfl, rfl, _, _, rfl, rfl⟩) | cases h

/-- Memory of a request. -/
def AReq.has (r : AReq) (x : Nat) : Prop := r.ptr ≤ x ∧ x < r.ptr + r.len

theorem irecvR_wr {c : PCtx β} {x : Nat × CBody β} {r : AReq} (h : irecvR c.es x = some r) (y : Nat) : wr c.env x.2 y = true ↔ AReq.has r y := by
  obtain ⟨_, _, _, s, n, hb, hl⟩ := irecvR_some h
  rw [hb]
  show (true && decide (r.ptr ≤ y ∧ y < r.ptr + n * c.es)) = true ↔ r.ptr ≤ y ∧ y < r.ptr + r.len
  rw [hl]
  simp

theorem isendR_rd {c : PCtx β} {x : Nat × CBody β} {r : AReq} (h : isendR c.es x = some r) (y : Nat) : rd c.env x.2 y ↔ AReq.has r y := by
  obtain ⟨_, _, _, s, n, hb, hl⟩ := isendR_some h
  rw [hb]
  show (true = true ∧ r.ptr ≤ y ∧ y < r.ptr + n * c.es) ↔ r.ptr ≤ y ∧ y < r.ptr + r.len
  rw [hl]
  simp

/-! ### State of one process -/

/-- `R`: receives to post, `U`: actions to do, `W`: waits for sends, `T`: local
actions to do after that. -/
structure PSim (c : PCtx β) (P Tl : List (CBody β)) (arem : List (AAct β)) (srem : List (XAct (Nat → β) β)) (sq rq : List AReq) (am sm : Nat → β)
    (Dl : Nat → List (AReq × List β)) (R : List AReq) (D U : List (Nat × CBody β)) (W : List AReq) (T : List (CBody β)) : Prop where
  split : numGo 0 P = D ++ U
  arem : arem = R.map .irecv ++ (U.map c.mainA ++ (W.map (fun r => .wait r.id) ++ T.map c.bexec))
  srem : srem = U.map (fun x => c.exec x.2) ++ T.map c.exec
  hR : R ≠ [] → D = []
  hW : U ≠ [] → W = (numGo 0 P).filterMap (isendR c.es)
  hWs : ∀ r ∈ W, r ∈ (numGo 0 P).filterMap (isendR c.es)
  hT : U ≠ [] ∨ W ≠ [] → T = Tl
  hTs : ∀ b ∈ T, b ∈ Tl
  recvs : ∀ q, (U.filterMap (irecvR c.es)).filter (fun r => r.peer = q) = (Dl q).map (·.1) ++ (rq ++ R).filter (fun r => r.peer = q)
  sends : ∀ r ∈ sq, r ∈ W ∧ r ∈ D.filterMap (isendR c.es)
  dl : ∀ q, ∀ y ∈ Dl q, y.2.length = y.1.len ∧ readMem am y.1.ptr y.1.len = y.2
  mem : ∀ x, (∀ q, ∀ y ∈ Dl q, ¬ AReq.has y.1 x) → am x = sm x

variable {c : PCtx β} {P Tl : List (CBody β)} {arem : List (AAct β)} {srem : List (XAct (Nat → β) β)} {sq rq : List AReq} {am sm : Nat → β}
  {Dl : Nat → List (AReq × List β)} {R : List AReq} {D U : List (Nat × CBody β)} {W : List AReq} {T : List (CBody β)}

/-- Delivered data belongs to a receive still to be waited for. -/
theorem PSim.dl_mem (h : PSim c P Tl arem srem sq rq am sm Dl R D U W T) {q : Nat} {y : AReq × List β} (hy : y ∈ Dl q) : y.1 ∈ U.filterMap (irecvR c.es) ∧ y.1.peer = q := by
  have : y.1 ∈ (U.filterMap (irecvR c.es)).filter (fun r => r.peer = q) := by
    rw [h.recvs q]
    exact List.mem_append_left _ (List.mem_map_of_mem hy)
  obtain ⟨h1, h2⟩ := List.mem_filter.1 this
  exact ⟨h1, by simpa using h2⟩

theorem PSim.rq_mem (h : PSim c P Tl arem srem sq rq am sm Dl R D U W T) {r : AReq} (hr : r ∈ rq) : r ∈ U.filterMap (irecvR c.es) := by
  have : r ∈ (U.filterMap (irecvR c.es)).filter (fun x => x.peer = r.peer) := by
    rw [h.recvs r.peer]
    exact List.mem_append_right _ (List.mem_filter.2 ⟨List.mem_append_left _ hr, by simp⟩)
  exact (List.mem_filter.1 this).1

theorem PSim.bodies (h : PSim c P Tl arem srem sq rq am sm Dl R D U W T) : P = D.map (·.2) ++ U.map (·.2) := by
  rw [← List.map_append, ← h.split, numGo_snd]

theorem PSim.pair (h : PSim c P Tl arem srem sq rq am sm Dl R D U W T) (hP : P.Pairwise (AR c.env)) :
    (D ++ U).Pairwise (fun x y => AR c.env x.2 y.2) := by
  have := hP
  rw [h.bodies, ← List.map_append, List.pairwise_map] at this
  exact this

/-- Sends which are not complete are not touched by actions to do. -/
theorem PSim.send_safe (h : PSim c P Tl arem srem sq rq am sm Dl R D U W T) (hP : P.Pairwise (AR c.env)) {r : AReq} (hr : r ∈ sq) {x : Nat × CBody β} (hx : x ∈ U)
    {y : Nat} (hy : AReq.has r y) : wr c.env x.2 y = false := by
  obtain ⟨z, hz, hzr⟩ := List.mem_filterMap.1 (h.sends r hr).2
  have := (List.pairwise_append.1 (h.pair hP)).2.2 z hz x hx
  exact this.1 (isendR_some hzr).2.1 y ((isendR_rd hzr y).2 hy)

/-- Requests of the receives to do. -/
theorem recvs_pair {c : PCtx β} {U : List (Nat × CBody β)} (hU : U.Pairwise (fun x y => AR c.env x.2 y.2)) (hi : U.Pairwise (fun x y => isP2p x.2 = true → x.1 < y.1)) :
    (U.filterMap (irecvR c.es)).Pairwise (fun r r' => r.id < r'.id ∧ ∀ x, AReq.has r x → ¬ AReq.has r' x) := by
  rw [List.pairwise_filterMap]
  refine (hU.and hi).imp ?_
  rintro x y ⟨h1, h2⟩ r hr r' hr'
  obtain ⟨p1, _, e1, _⟩ := irecvR_some hr
  obtain ⟨_, p2, e2, _⟩ := irecvR_some hr'
  refine ⟨by rw [e1, e2]; exact h2 p1, ?_⟩
  intro z hz hz'
  have := (h1.2 p2 z ((irecvR_wr hr' z).2 hz')).2
  rw [(irecvR_wr hr z).2 hz] at this
  cases this

theorem PSim.recv_pair (h : PSim c P Tl arem srem sq rq am sm Dl R D U W T) (hP : P.Pairwise (AR c.env)) :
    (U.filterMap (irecvR c.es)).Pairwise (fun r r' => r.id < r'.id ∧ ∀ x, AReq.has r x → ¬ AReq.has r' x) := by
  refine recvs_pair (List.pairwise_append.1 (h.pair hP)).2.1 ?_
  have := numGo_ids P 0
  rw [h.split] at this
  exact (List.pairwise_append.1 this).2.1

theorem PSim.recv_disj (h : PSim c P Tl arem srem sq rq am sm Dl R D U W T) (hP : P.Pairwise (AR c.env)) {r r' : AReq} (hr : r ∈ U.filterMap (irecvR c.es))
    (hr' : r' ∈ U.filterMap (irecvR c.es)) (hne : r ≠ r') : (∀ x, AReq.has r x → ¬ AReq.has r' x) ∧ r.id ≠ r'.id := by
  have hp := (h.recv_pair hP).imp (S := fun r r' : AReq => (∀ x, AReq.has r x → ¬ AReq.has r' x) ∧ r.id ≠ r'.id) (fun hh => ⟨hh.2, by omega⟩)
  have : Std.Symm (fun r r' : AReq => (∀ x, AReq.has r x → ¬ AReq.has r' x) ∧ r.id ≠ r'.id) :=
    ⟨fun a b h => ⟨fun x h1 h2 => h.1 x h2 h1, fun e => h.2 e.symm⟩⟩
  exact hp.forall hr hr' hne

theorem nodup_of_lt {l : List AReq} (h : l.Pairwise (fun r r' => r.id < r'.id ∧ ∀ x, AReq.has r x → ¬ AReq.has r' x)) : l.Nodup :=
  h.imp (fun h1 e => by rw [e] at h1; omega)

/-- A delivered receive is not one still open. -/
theorem PSim.dl_ne_rq (h : PSim c P Tl arem srem sq rq am sm Dl R D U W T) (hP : P.Pairwise (AR c.env)) {q : Nat} {y : AReq × List β} (hy : y ∈ Dl q)
    {r : AReq} (hr : r ∈ rq ++ R) : y.1 ≠ r := by
  rintro rfl
  obtain ⟨_, h2⟩ := h.dl_mem hy
  have hn := (nodup_of_lt (h.recv_pair hP)).filter (fun r => decide (r.peer = q))
  rw [h.recvs q, List.nodup_append] at hn
  exact hn.2.2 y.1 (List.mem_map_of_mem hy) y.1 (List.mem_filter.2 ⟨hr, by simpa using h2⟩) rfl

theorem dl_ne {l : List (AReq × List β)} {y z : AReq × List β} (hn : ((y :: l).map (·.1)).Nodup) (hz : z ∈ l) : y.1 ≠ z.1 := by
  rw [List.map_cons, List.nodup_cons] at hn
  intro e
  exact hn.1 (e ▸ List.mem_map_of_mem hz)

theorem PSim.dl_nodup (h : PSim c P Tl arem srem sq rq am sm Dl R D U W T) (hP : P.Pairwise (AR c.env)) (q : Nat) : ((Dl q).map (·.1)).Nodup := by
  have hn := (nodup_of_lt (h.recv_pair hP)).filter (fun r => decide (r.peer = q))
  rw [h.recvs q, List.nodup_append] at hn
  exact hn.1

theorem readMem_reg {m m' : Nat → β} {r : AReq} (h : ∀ x, AReq.has r x → m x = m' x) : readMem m r.ptr r.len = readMem m' r.ptr r.len :=
  readMem_congr (fun t ht => h _ ⟨by omega, by omega⟩)

section
variable {x : Nat × CBody β} {U' : List (Nat × CBody β)}

/-- The next action does not use memory with delivered data, if it is not the wait
for it. -/
theorem PSim.next_safe (h : PSim c P Tl arem srem sq rq am sm Dl R D (x :: U') W T) (hP : P.Pairwise (AR c.env)) {q : Nat} {y : AReq × List β} (hy : y ∈ Dl q)
    (hx : irecvR c.es x ≠ some y.1) {z : Nat} (hz : AReq.has y.1 z) : ¬ rd c.env x.2 z ∧ wr c.env x.2 z = false := by
  obtain ⟨w, hw, hwr⟩ := List.mem_filterMap.1 (h.dl_mem hy).1
  rcases List.mem_cons.1 hw with rfl | hw
  · exact absurd hwr hx
  · have h1 := (List.pairwise_append.1 (h.pair hP)).2.1
    rw [List.pairwise_cons] at h1
    exact (h1.1 w hw).2 (irecvR_some hwr).2.1 z ((irecvR_wr hwr z).2 hz)

theorem PSim.read_eq (h : PSim c P Tl arem srem sq rq am sm Dl R D (x :: U') W T) (hP : P.Pairwise (AR c.env)) (hx : irecvR c.es x = none) {z : Nat}
    (hz : rd c.env x.2 z) : am z = sm z := by
  apply h.mem
  intro q y hy hyz
  exact (h.next_safe hP hy (by rw [hx]; simp) hyz).1 hz

/-- A local action or collective. -/
theorem PSim.write (h : PSim c P Tl arem srem sq rq am sm Dl [] D (x :: U') W T) (hP : P.Pairwise (AR c.env)) (hx : irecvR c.es x = none)
    {am' sm' : Nat → β} (hw0 : ∀ y, wr c.env x.2 y = false → am' y = am y ∧ sm' y = sm y) (hw1 : ∀ y, wr c.env x.2 y = true → am' y = sm' y) :
    PSim c P Tl (U'.map c.mainA ++ (W.map (fun r => .wait r.id) ++ T.map c.bexec)) (U'.map (fun x => c.exec x.2) ++ T.map c.exec) sq rq am' sm' Dl [] (D ++ [x]) U' W T ∧
    ∀ r ∈ sq, readMem am' r.ptr r.len = readMem am r.ptr r.len := by
  have hs : ∀ r ∈ sq, readMem am' r.ptr r.len = readMem am r.ptr r.len := by
    intro r hr
    exact readMem_reg (fun z hz => (hw0 z (h.send_safe hP hr List.mem_cons_self hz)).1)
  refine ⟨⟨by rw [h.split]; simp, by simp, rfl, fun h => absurd rfl h, fun _ => h.hW (by simp), h.hWs, fun _ => h.hT (Or.inl (by simp)), h.hTs, ?_, ?_, ?_, ?_⟩, hs⟩
  · intro q
    have := h.recvs q
    rw [List.filterMap_cons_none hx] at this
    exact this
  · intro r hr
    obtain ⟨h1, h2⟩ := h.sends r hr
    exact ⟨h1, by rw [List.filterMap_append]; exact List.mem_append_left _ h2⟩
  · intro q y hy
    obtain ⟨h1, h2⟩ := h.dl q y hy
    refine ⟨h1, ?_⟩
    rw [← h2]
    exact readMem_reg (fun z hz => (hw0 z (h.next_safe hP hy (by rw [hx]; simp) hz).2).1)
  · intro z hz
    cases hwz : wr c.env x.2 z with
    | true => exact hw1 z hwz
    | false =>
      obtain ⟨e1, e2⟩ := hw0 z hwz
      rw [e1, e2]
      exact h.mem z hz

theorem PSim.isend (h : PSim c P Tl arem srem sq rq am sm Dl [] D (x :: U') W T) {r : AReq} (hx : isendR c.es x = some r) :
    PSim c P Tl (U'.map c.mainA ++ (W.map (fun r => .wait r.id) ++ T.map c.bexec)) (U'.map (fun x => c.exec x.2) ++ T.map c.exec) (sq ++ [r]) rq am sm Dl [] (D ++ [x]) U' W T := by
  have hn : irecvR c.es x = none := by
    obtain ⟨_, _, _, d, n, hb, _⟩ := isendR_some hx
    unfold irecvR
    rw [hb]
  refine ⟨by rw [h.split]; simp, by simp, rfl, fun h => absurd rfl h, fun _ => h.hW (by simp), h.hWs, fun _ => h.hT (Or.inl (by simp)), h.hTs, ?_, ?_, h.dl, h.mem⟩
  · intro q
    have := h.recvs q
    rw [List.filterMap_cons_none hn] at this
    exact this
  · intro r' hr
    rw [List.filterMap_append]
    rcases List.mem_append.1 hr with hr | hr
    · obtain ⟨h1, h2⟩ := h.sends r' hr
      exact ⟨h1, List.mem_append_left _ h2⟩
    · rw [List.mem_singleton.1 hr]
      refine ⟨?_, List.mem_append_right _ (by rw [List.filterMap_cons_some hx]; simp)⟩
      rw [h.hW (by simp), h.split, List.filterMap_append, List.filterMap_cons_some hx]
      simp

/-- Wait for a receive. -/
theorem PSim.waitR (h : PSim c P Tl arem srem sq rq am sm Dl [] D (x :: U') W T) {r : AReq} (hx : irecvR c.es x = some r)
    (hr : r ∉ rq) : ∃ vs l, Dl r.peer = (r, vs) :: l ∧ vs.length = r.len ∧
    PSim c P Tl (U'.map c.mainA ++ (W.map (fun r => .wait r.id) ++ T.map c.bexec)) (U'.map (fun x => c.exec x.2) ++ T.map c.exec) sq rq am (writeMem sm r.ptr vs)
      (upP Dl r.peer l) [] (D ++ [x]) U' W T := by
  have h0 := h.recvs r.peer
  rw [List.filterMap_cons_some hx, List.filter_cons, if_pos (by simp)] at h0
  cases hd : Dl r.peer with
  | nil =>
    rw [hd, List.map_nil, List.nil_append, List.append_nil] at h0
    have : r ∈ rq.filter (fun r' => decide (r'.peer = r.peer)) := by rw [← h0]; simp
    exact absurd (List.mem_filter.1 this).1 hr
  | cons y l =>
    obtain ⟨r', vs⟩ := y
    rw [hd, List.map_cons, List.cons_append, List.cons.injEq] at h0
    obtain ⟨e, h0⟩ := h0
    have e : r = r' := e
    subst e
    have hy : (r, vs) ∈ Dl r.peer := by rw [hd]; simp
    obtain ⟨hl, hrd⟩ := h.dl r.peer _ hy
    have hl : vs.length = r.len := hl
    have hrd : readMem am r.ptr r.len = vs := hrd
    refine ⟨vs, l, rfl, hl, by rw [h.split]; simp, by simp, rfl, fun h => absurd rfl h, fun _ => h.hW (by simp), h.hWs, fun _ => h.hT (Or.inl (by simp)), h.hTs, ?_, ?_, ?_, ?_⟩
    · intro q
      by_cases c : q = r.peer
      · subst c
        unfold upP
        rw [if_pos rfl]
        exact h0
      · unfold upP
        rw [if_neg c]
        have := h.recvs q
        rw [List.filterMap_cons_some hx, List.filter_cons, if_neg (by simpa using fun e => c e.symm)] at this
        exact this
    · intro r' hr'
      obtain ⟨h1, h2⟩ := h.sends r' hr'
      exact ⟨h1, by rw [List.filterMap_append]; exact List.mem_append_left _ h2⟩
    · intro q y hy
      apply h.dl q
      unfold upP at hy
      split at hy
      · rename_i e; subst e; rw [hd]; exact List.mem_cons_of_mem _ hy
      · exact hy
    · intro z hz
      by_cases hrz : AReq.has r z
      · obtain ⟨h1, h2⟩ := hrz
        have e := (writeMem_spec sm r.ptr vs z).1 (z - r.ptr) (am z) (by
          rw [← hrd]
          unfold readMem
          rw [List.getElem?_map, List.getElem?_range (by omega)]
          show some (am (r.ptr + (z - r.ptr))) = _
          rw [Nat.add_sub_cancel' h1]) (by omega)
        exact e.symm
      · rw [(writeMem_spec sm r.ptr vs z).2 (by rw [hl]; exact hrz)]
        apply h.mem
        intro q y hy
        by_cases c : q = r.peer
        · subst c
          rw [hd] at hy
          rcases List.mem_cons.1 hy with rfl | hy
          · exact hrz
          · exact hz r.peer y (by unfold upP; rw [if_pos rfl]; exact hy)
        · exact hz q y (by unfold upP; rw [if_neg c]; exact hy)
end

theorem PSim.irecv {r : AReq} {R' : List AReq} (h : PSim c P Tl arem srem sq rq am sm Dl (r :: R') D U W T) :
    PSim c P Tl (R'.map .irecv ++ (U.map c.mainA ++ (W.map (fun r => .wait r.id) ++ T.map c.bexec))) srem sq (rq ++ [r]) am sm Dl R' D U W T := by
  refine ⟨h.split, rfl, h.srem, fun _ => h.hR (by simp), h.hW, h.hWs, h.hT, h.hTs, ?_, h.sends, h.dl, h.mem⟩
  intro q
  rw [h.recvs q, List.append_assoc]
  rfl

theorem PSim.dl_nil (h : PSim c P Tl arem srem sq rq am sm Dl R D [] W T) : (∀ q, Dl q = []) ∧ rq = [] ∧ R = [] ∧ am = sm := by
  have h1 : ∀ q, Dl q = [] := by
    intro q
    have := (h.recvs q).symm
    rw [List.filterMap_nil, List.filter_nil, List.append_eq_nil_iff] at this
    exact List.map_eq_nil_iff.1 this.1
  have h2 : rq ++ R = [] := by
    apply List.eq_nil_iff_forall_not_mem.2
    intro r hr
    have := (h.recvs r.peer).symm
    rw [List.filterMap_nil, List.filter_nil, List.append_eq_nil_iff] at this
    have h3 := List.filter_eq_nil_iff.1 this.2 r hr
    simp at h3
  refine ⟨h1, (List.append_eq_nil_iff.1 h2).1, (List.append_eq_nil_iff.1 h2).2, ?_⟩
  funext x
  apply h.mem
  intro q y hy
  rw [h1 q] at hy
  cases hy

theorem PSim.waitS {r : AReq} {W' : List AReq} (h : PSim c P Tl arem srem sq rq am sm Dl [] D [] (r :: W') T) (hr : ∀ r' ∈ sq, r'.id ≠ r.id) :
    PSim c P Tl (W'.map (fun r => .wait r.id) ++ T.map c.bexec) srem sq rq am sm Dl [] D [] W' T := by
  refine ⟨h.split, rfl, h.srem, h.hR, fun h => absurd rfl h, fun r hr => h.hWs r (List.mem_cons_of_mem _ hr), fun _ => h.hT (Or.inr (by simp)), h.hTs, h.recvs, ?_, h.dl, h.mem⟩
  intro r' hr'
  obtain ⟨h1, h2⟩ := h.sends r' hr'
  refine ⟨?_, h2⟩
  rcases List.mem_cons.1 h1 with rfl | h1
  · exact absurd rfl (hr r' hr')
  · exact h1

theorem PSim.tail {b : CBody β} {T' : List (CBody β)} (h : PSim c P Tl arem srem sq rq am sm Dl [] D [] [] (b :: T')) (f : (Nat → β) → Nat → β) :
    PSim c P Tl (T'.map c.bexec) (T'.map c.exec) sq rq (f am) (f sm) Dl [] D [] [] T' ∧ sq = [] := by
  obtain ⟨h1, _, _, h2⟩ := h.dl_nil
  refine ⟨⟨h.split, rfl, rfl, h.hR, h.hW, h.hWs, fun hh => by rcases hh with hh | hh <;> exact absurd rfl hh, fun x hx => h.hTs x (List.mem_cons_of_mem _ hx), h.recvs, h.sends, ?_, ?_⟩, ?_⟩
  · intro q y hy
    rw [h1 q] at hy
    cases hy
  · intro x _
    rw [h2]
  · apply List.eq_nil_iff_forall_not_mem.2
    intro r hr
    have := (h.sends r hr).1
    cases this

theorem PSim.sub {sq' : List AReq} (h : PSim c P Tl arem srem sq rq am sm Dl R D U W T) (hs : ∀ r ∈ sq', r ∈ sq) : PSim c P Tl arem srem sq' rq am sm Dl R D U W T :=
  ⟨h.split, h.arem, h.srem, h.hR, h.hW, h.hWs, h.hT, h.hTs, h.recvs, fun r hr => h.sends r (hs r hr), h.dl, h.mem⟩

/-- Data is delivered. -/
theorem PSim.deliver {r1 r2 : List AReq} {r : AReq} (h : PSim c P Tl arem srem sq (r1 ++ r :: r2) am sm Dl R D U W T) (hP : P.Pairwise (AR c.env))
    (hr1 : ∀ y ∈ r1, y.peer ≠ r.peer) {vs : List β} (hl : vs.length = r.len) :
    PSim c P Tl arem srem sq (r1 ++ r2) (writeMem am r.ptr vs) sm (upP Dl r.peer (Dl r.peer ++ [(r, vs)])) R D U W T ∧
    ∀ r' ∈ sq, readMem (writeMem am r.ptr vs) r'.ptr r'.len = readMem am r'.ptr r'.len := by
  have hru : r ∈ U.filterMap (irecvR c.es) := h.rq_mem (by simp)
  obtain ⟨w, hw, hwr⟩ := List.mem_filterMap.1 hru
  have hout : ∀ z, ¬ AReq.has r z → writeMem am r.ptr vs z = am z := fun z hz => (writeMem_spec am r.ptr vs z).2 (by rw [hl]; exact hz)
  have hs : ∀ r' ∈ sq, readMem (writeMem am r.ptr vs) r'.ptr r'.len = readMem am r'.ptr r'.len := by
    intro r' hr'
    apply readMem_reg
    intro z hz
    apply hout
    intro hrz
    have := h.send_safe hP hr' hw hz
    rw [(irecvR_wr hwr z).2 hrz] at this
    cases this
  have hself : readMem (writeMem am r.ptr vs) r.ptr r.len = vs := by
    apply List.ext_getElem?
    intro i
    unfold readMem
    rw [List.getElem?_map]
    by_cases c : i < r.len
    · rw [List.getElem?_range c, Option.map_some]
      have e := List.getElem?_eq_getElem (l := vs) (i := i) (by omega)
      rw [e, (writeMem_spec am r.ptr vs (r.ptr + i)).1 i _ e rfl]
    · rw [List.getElem?_eq_none (by simp; omega), List.getElem?_eq_none (by omega)]
      rfl
  refine ⟨⟨h.split, h.arem, h.srem, h.hR, h.hW, h.hWs, h.hT, h.hTs, ?_, h.sends, ?_, ?_⟩, hs⟩
  · intro q
    rw [h.recvs q]
    have f1 : ∀ q, q = r.peer → r1.filter (fun x => decide (x.peer = q)) = [] := by
      rintro q rfl
      exact List.filter_eq_nil_iff.2 (fun x hx => by simpa using hr1 x hx)
    unfold upP
    by_cases c : q = r.peer
    · have f := f1 q c
      subst c
      rw [if_pos rfl]
      simp [List.filter_append, List.filter_cons, f]
    · rw [if_neg c]
      simp only [List.filter_append, List.filter_cons]
      rw [if_neg (by simpa using fun e => c e.symm)]
  · intro q y hy
    have old : ∀ y ∈ Dl q, y.2.length = y.1.len ∧ readMem (writeMem am r.ptr vs) y.1.ptr y.1.len = y.2 := by
      intro y hy
      obtain ⟨h1, h2⟩ := h.dl q y hy
      refine ⟨h1, ?_⟩
      rw [← h2]
      apply readMem_reg
      intro z hz
      apply hout
      exact (h.recv_disj hP (h.dl_mem hy).1 hru (h.dl_ne_rq hP hy (by simp))).1 z hz
    unfold upP at hy
    split at hy
    · rename_i e
      subst e
      rcases List.mem_append.1 hy with hy | hy
      · exact old y hy
      · rw [List.mem_singleton.1 hy]
        exact ⟨hl, hself⟩
    · exact old y hy
  · intro z hz
    rw [hout z (hz r.peer (r, vs) (by unfold upP; rw [if_pos rfl]; simp))]
    apply h.mem
    intro q y hy
    apply hz q y
    unfold upP
    split
    · rename_i e; subst e; exact List.mem_append_left _ hy
    · exact hy

end Laik.Mp
