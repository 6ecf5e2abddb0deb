import Mathlib.Data.List.Nodup
import Verif.Model.MiniColl
/-!
# Collective operations as sequences of events
-/

namespace Laik.Mm

open Function

variable {S : Comm → Prop}

/-- Process of a rank. -/
def Comm.proc (c : Comm) (r : Nat) : Nat := c.tasks[r]?.getD 0

/-! ### events -/

def bcastE (c : Comm) (x size root : Nat) : List (Ev PS) :=
  (others c.tasks.length root).map fun r =>
    .tr ⟨c, tBroadcast, root, r, 0⟩ false (fun s => (s.mem x).take size) (bcastGot size x)

def reduceE (F : Flt) (c : Comm) (inp : Option Nat) (out n : Nat) (ty : MTy) (op : MOp) (root : Nat) :
    List (Ev PS) :=
  .loc (c.proc root) (fun s => some (reduceInit inp out (n * ty.bytes) s)) ::
  (others c.tasks.length root).map fun r =>
    .tr ⟨c, tReduce, r, root, 0⟩ false (fun s => (s.mem (inp.getD out)).take (n * ty.bytes))
      (reduceGot F ty op out n)

def barrierE (c : Comm) : List (Ev PS) :=
  ((others c.tasks.length 0).map fun r =>
    .tr ⟨c, tBarrier, r, 0, 0⟩ false (fun _ => []) fun s _ => some s) ++
  (others c.tasks.length 0).map fun r =>
    .tr ⟨c, tBarrier, 0, r, 0⟩ true (fun _ => []) fun s _ => some s

def p2pE (c : Comm) (s r tag x size y cap : Nat) : List (Ev PS) :=
  [.tr ⟨c, tSendRecv, s, r, tag⟩ false (fun s => (s.mem x).take size) (recvGot y cap)]

def splitInits (c : Comm) (color hint : Nat → Int) : List (Ev PS) :=
  (List.range c.tasks.length).map fun r =>
    .loc (c.proc r) fun s => some (splitInit ⟨color r, hint r, r⟩ s)

def splitEnds (c : Comm) (color : Nat → Int) : List (Ev PS) :=
  (List.range c.tasks.length).map fun r => .loc (c.proc r) (splitEnd c r (color r))

/-- Event of the message from `s` to `r` in a split. -/
def splitEv (c : Comm) (async : Bool) (color hint : Nat → Int) (s r : Nat) : Ev PS :=
  let b := Split.bytes ⟨color s, hint s, s⟩
  if async then .bt ⟨c, tSplit, s, r, 0⟩ b splitGot
  else .tr ⟨c, tSplit, s, r, 0⟩ false (fun _ => b) splitGot

def splitMsgs (c : Comm) (async : Bool) (color hint : Nat → Int) (l : List Nat) : List (Ev PS) :=
  l.flatMap fun s => (others c.tasks.length s).map (splitEv c async color hint s)

def splitE (c : Comm) (async : Bool) (color hint : Nat → Int) : List (Ev PS) :=
  let m := splitMsgs c async color hint (List.range c.tasks.length)
  splitInits c color hint ++ (if async then .fork c :: m ++ [.join c] else m) ++ splitEnds c color

def Call.evs (F : Flt) : Call → List (Ev PS)
  | .bcast c x n ty root => bcastE c x (n * ty.bytes) root
  | .reduce c inp out n ty op root => reduceE F c inp out n ty op root
  | .allreduce c inp out n ty op =>
    reduceE F c inp out n ty op 0 ++ bcastE c out (n * ty.bytes) 0
  | .barrier c => barrierE c
  | .p2p c s r tag x size y cap => p2pE c s r tag x size y cap
  | .split c async color hint => splitE c async color hint

theorem mem_others {n r q : Nat} : q ∈ others n r ↔ q < n ∧ q ≠ r := by
  simp [others]

theorem others_nodup (n r : Nat) : (others n r).Nodup := List.nodup_range.filter _

/-! ### well-formed -/

theorem WF.locs {σ : Type} (f : Nat → Nat) (h : Nat → σ → Option σ) (es : List (Ev σ)) (l : List Nat)
    (he : WF S none es) : WF S none (l.map (fun r => Ev.loc (f r) (h r)) ++ es) := by
  induction l with
  | nil => exact he
  | cons x l ih => exact ih

theorem WF.trs {σ : Type} (f : Nat → Chan) (sy : Bool) (out : Nat → σ → Body)
    (upd : σ → Body → Option σ) (es : List (Ev σ)) (l : List Nat) (hl : ∀ r ∈ l, (f r).Valid S)
    (he : WF S none es) : WF S none (l.map (fun r => Ev.tr (f r) sy (out r) upd) ++ es) := by
  induction l with
  | nil => exact he
  | cons x l ih => exact ⟨hl x (by simp), ih fun r hr => hl r (by simp [hr])⟩

theorem bcastE_wf {c : Comm} {x size root : Nat} (hc : S c) (hr : root < c.tasks.length)
    {es : List (Ev PS)} (he : WF S none es) : WF S none (bcastE c x size root ++ es) :=
  WF.trs _ _ (fun _ => _) _ _ _ (fun r h => by
    obtain ⟨h1, h2⟩ := mem_others.mp h
    exact ⟨hc, hr, h1, fun e => h2 e.symm⟩) he

theorem reduceE_wf {F : Flt} {c : Comm} {inp : Option Nat} {out n : Nat} {ty : MTy} {op : MOp}
    {root : Nat} (hc : S c) (hr : root < c.tasks.length) {es : List (Ev PS)} (he : WF S none es) :
    WF S none (reduceE F c inp out n ty op root ++ es) :=
  WF.trs _ _ (fun _ => _) _ _ _ (fun r h => by
    obtain ⟨h1, h2⟩ := mem_others.mp h
    exact ⟨hc, h1, hr, h2⟩) he

theorem splitMsgs_wf {c : Comm} {color hint : Nat → Int} {async : Bool} (hc : S c) {es : List (Ev PS)}
    (he : WF S (if async then some c else none) es) :
    ∀ l : List Nat, (∀ s ∈ l, s < c.tasks.length) →
      WF S (if async then some c else none) (splitMsgs c async color hint l ++ es) := by
  intro l
  induction l with
  | nil => exact fun _ => he
  | cons x l ih =>
    intro hl
    have h1 := ih fun s hs => hl s (by simp [hs])
    have hx := hl x (by simp)
    have key : ∀ rs : List Nat, (∀ r ∈ rs, r < c.tasks.length ∧ r ≠ x) →
        WF S (if async then some c else none)
          (rs.map (splitEv c async color hint x) ++ (splitMsgs c async color hint l ++ es)) := by
      intro rs
      induction rs with
      | nil => exact fun _ => h1
      | cons r rs ihr =>
        intro hrs
        have h2 := ihr fun q hq => hrs q (by simp [hq])
        obtain ⟨h3, h4⟩ := hrs r (by simp)
        have hv : Chan.Valid S ⟨c, tSplit, x, r, 0⟩ := ⟨hc, hx, h3, fun e => h4 e.symm⟩
        cases async with
        | true => exact ⟨hv, rfl, h2⟩
        | false => exact ⟨hv, h2⟩
    have := key (others c.tasks.length x) fun r hr => mem_others.mp hr
    simpa [splitMsgs] using this

theorem splitE_wf {c : Comm} {async : Bool} {color hint : Nat → Int} (hc : S c) {es : List (Ev PS)}
    (he : WF S none es) : WF S none (splitE c async color hint ++ es) := by
  have h1 : WF S none (splitEnds c color ++ es) := WF.locs _ _ _ _ he
  simp only [splitE, List.append_assoc]
  refine WF.locs _ _ _ _ ?_
  cases async with
  | true =>
    have h2 : WF S (some c) (Ev.join c :: (splitEnds c color ++ es)) := ⟨rfl, h1⟩
    have h3 := splitMsgs_wf (async := true) (color := color) (hint := hint) hc h2
      (List.range c.tasks.length) (by simp)
    exact ⟨hc, by simpa using h3⟩
  | false =>
    exact splitMsgs_wf (async := false) hc h1 _ (by simp)

/-- Ranks exist. -/
def Call.Arg (S : Comm → Prop) : Call → Prop
  | .split c _ _ _ => S c
  | d => d.OK S

theorem Call.OK.arg {d : Call} (h : d.OK S) : d.Arg S := by
  cases d with
  | split c async color hint => exact h.1
  | _ => exact h

theorem Call.Arg.comm {d : Call} (h : d.Arg S) : S d.comm := by
  cases d with
  | barrier c => exact h
  | split c async color hint => exact h
  | _ => exact h.1

theorem Call.evs_wf {F : Flt} {d : Call} (h : d.Arg S) {es : List (Ev PS)} (he : WF S none es) :
    WF S none (d.evs F ++ es) := by
  cases d with
  | bcast c x n ty root => exact bcastE_wf h.1 h.2 he
  | reduce c inp out n ty op root => exact reduceE_wf h.1 h.2 he
  | allreduce c inp out n ty op =>
    simp only [Call.evs, List.append_assoc]
    exact reduceE_wf h.1 h.2 (bcastE_wf h.1 h.2 he)
  | barrier c =>
    simp only [Call.evs, barrierE, List.append_assoc]
    by_cases hn : c.tasks.length = 0
    · simpa [others, hn] using he
    · refine WF.trs _ _ (fun _ => _) _ _ _ (fun r hr => ?_) (WF.trs _ _ (fun _ => _) _ _ _ (fun r hr => ?_) he)
      · obtain ⟨h1, h2⟩ := mem_others.mp hr
        exact ⟨h, h1, Nat.pos_of_ne_zero hn, h2⟩
      · obtain ⟨h1, h2⟩ := mem_others.mp hr
        exact ⟨h, Nat.pos_of_ne_zero hn, h1, fun e => h2 e.symm⟩
  | p2p c s r tag x size y cap =>
    exact ⟨⟨h.1, h.2.1, h.2.2.1, h.2.2.2⟩, he⟩
  | split c async color hint => exact splitE_wf h he

/-! ### programs -/

section
variable {c : Comm} {p : Nat}

theorem rank_inj (hn : c.tasks.Nodup) {i j : Nat} (hi : c.tasks[i]? = some p) (hj : c.tasks[j]? = some p) :
    i = j := by
  obtain ⟨h1, h2⟩ := List.getElem?_eq_some_iff.mp hi
  obtain ⟨h3, h4⟩ := List.getElem?_eq_some_iff.mp hj
  exact (List.Nodup.getElem_inj_iff hn).mp (h2.trans h4.symm)

theorem rank_iff (hn : c.tasks.Nodup) {rank i : Nat} (hr : c.tasks[rank]? = some p) :
    c.tasks[i]? = some p ↔ i = rank :=
  ⟨fun h => rank_inj hn h hr, fun h => h ▸ hr⟩

/-- An event without `p`. -/
def Ev.off {σ : Type} (p : Nat) : Ev σ → Prop
  | .loc q _ => q ≠ p
  | .tr X _ _ _ => X.src ≠ some p ∧ X.dst ≠ some p
  | .bt X _ _ => X.dst ≠ some p
  | .fork c => p ∉ c.tasks
  | .join c => p ∉ c.tasks

theorem proj_skip {σ : Type} (es : List (Ev σ)) (s : σ) : ∀ l : List (Ev σ),
    (∀ e ∈ l, e.off p) → proj p (l ++ es) s = proj p es s := by
  intro l
  induction l with
  | nil => exact fun _ => rfl
  | cons e l ih =>
    intro h
    have h1 := ih fun x hx => h x (by simp [hx])
    have h2 := h e (by simp)
    cases e with
    | loc q f =>
      have h2 : q ≠ p := h2
      simp [proj, h2, h1]
    | tr X sy out upd =>
      have h2 : X.src ≠ some p ∧ X.dst ≠ some p := h2
      simp [proj, h2, h1]
    | bt X b upd =>
      have h2 : X.dst ≠ some p := h2
      simp [proj, h2, h1]
    | fork c =>
      have h2 : p ∉ c.tasks := h2
      simp [proj, h2, h1]
    | join c =>
      have h2 : p ∉ c.tasks := h2
      simp [proj, h2, h1]

theorem split_mem {l : List Nat} (hl : l.Nodup) {r : Nat} (h : r ∈ l) :
    ∃ a b, l = a ++ r :: b ∧ r ∉ a ∧ r ∉ b := by
  obtain ⟨a, b, rfl⟩ := List.append_of_mem h
  rw [List.nodup_append] at hl
  obtain ⟨_, h2, h3⟩ := hl
  exact ⟨a, b, rfl, fun h => h3 r h r (by simp) rfl, (List.nodup_cons.mp h2).1⟩

/-- A list of events for ranks of which only one is of `p`. -/
theorem proj_one {σ : Type} {l : List Nat} (hl : l.Nodup) {r : Nat} (h : r ∈ l) (f : Nat → Ev σ)
    (ho : ∀ q ∈ l, q ≠ r → (f q).off p) (es : List (Ev σ)) :
    ∃ l', (∀ s, proj p (l.map f ++ es) s = proj p (f r :: (l' ++ es)) s) ∧
      ∀ s, proj p (l' ++ es) s = proj p es s := by
  obtain ⟨a, b, rfl, h1, h2⟩ := split_mem hl h
  refine ⟨b.map f, fun s => ?_, fun s => ?_⟩
  · rw [List.map_append, List.append_assoc, proj_skip _ _ (a.map f)]
    · rfl
    · intro e he
      obtain ⟨q, hq, rfl⟩ := List.mem_map.mp he
      exact ho q (by simp [hq]) fun e => h1 (e ▸ hq)
  · refine proj_skip _ _ _ fun e he => ?_
    obtain ⟨q, hq, rfl⟩ := List.mem_map.mp he
    exact ho q (by simp [hq]) fun e => h2 (e ▸ hq)

theorem proj_send {σ : Type} {rank ty : Nat} (hr : c.tasks[rank]? = some p) (out : σ → Body)
    (upd : σ → Body → Option σ) (es : List (Ev σ)) (s : σ) : ∀ rs : List Nat,
    proj p (rs.map (fun r => Ev.tr ⟨c, ty, rank, r, 0⟩ false out upd) ++ es) s =
      sendAll c rank ty (out s) rs (proj p es s) := by
  intro rs
  induction rs with
  | nil => rfl
  | cons r rs ih =>
    have h : Chan.src ⟨c, ty, rank, r, 0⟩ = some p := hr
    simp only [List.map_cons, List.cons_append, proj, if_pos h, sendAll, ih]
    rfl

theorem proj_ssend {σ : Type} {rank ty : Nat} (hr : c.tasks[rank]? = some p) (out : σ → Body)
    (upd : σ → Body → Option σ) (es : List (Ev σ)) (s : σ) : ∀ rs : List Nat,
    proj p (rs.map (fun r => Ev.tr ⟨c, ty, rank, r, 0⟩ true out upd) ++ es) s =
      ssendAll c rank ty (out s) rs (proj p es s) := by
  intro rs
  induction rs with
  | nil => rfl
  | cons r rs ih =>
    have h : Chan.src ⟨c, ty, rank, r, 0⟩ = some p := hr
    simp only [List.map_cons, List.cons_append, proj, if_pos h, ssendAll, ih]
    rfl

theorem proj_recv {σ : Type} (hn : c.tasks.Nodup) {rank ty : Nat} {sy : Bool} (hr : c.tasks[rank]? = some p)
    (out : Nat → σ → Body) (upd : σ → Body → Option σ) (es : List (Ev σ)) : ∀ rs : List Nat,
    rank ∉ rs → ∀ s,
    proj p (rs.map (fun r => Ev.tr ⟨c, ty, r, rank, 0⟩ sy (out r) upd) ++ es) s =
      recvAll c rank ty upd rs s (proj p es) := by
  intro rs
  induction rs with
  | nil => exact fun _ _ => rfl
  | cons r rs ih =>
    intro hm s
    have h : ¬ Chan.src ⟨c, ty, r, rank, 0⟩ = some p := fun e =>
      hm (by rw [← (rank_iff hn hr).mp e]; simp)
    have h' : Chan.dst ⟨c, ty, r, rank, 0⟩ = some p := hr
    simp only [List.map_cons, List.cons_append, proj, if_neg h, if_pos h', recvAll]
    congr 1
    funext b
    cases upd s b with
    | none => rfl
    | some s' => exact ih (fun h => hm (by simp [h])) s'

theorem proj_recv1 {σ : Type} (hn : c.tasks.Nodup) {rank root ty : Nat} {sy : Bool}
    (hr : c.tasks[rank]? = some p) {rs : List Nat} (hd : rs.Nodup) (hm : rank ∈ rs) (hne : root ≠ rank)
    (out : σ → Body) (upd : σ → Body → Option σ) (es : List (Ev σ)) (s : σ) :
    proj p (rs.map (fun r => Ev.tr ⟨c, ty, root, r, 0⟩ sy out upd) ++ es) s =
      .recv ⟨c, rank, ty, root, 0⟩ fun b =>
        match upd s b with
        | some s' => proj p es s'
        | none => .err := by
  have hs : ∀ r, ¬ Chan.src ⟨c, ty, root, r, 0⟩ = some p := fun r e => hne ((rank_iff hn hr).mp e)
  obtain ⟨l', h1, h2⟩ := proj_one hd hm (fun r => Ev.tr ⟨c, ty, root, r, 0⟩ sy out upd) (p := p)
    (fun q _ hq => ⟨hs q, fun e => hq ((rank_iff hn hr).mp e)⟩) es
  have h' : Chan.dst ⟨c, ty, root, rank, 0⟩ = some p := hr
  rw [h1]
  simp only [proj, if_neg (hs _), if_pos h']
  congr 1
  funext b
  cases upd s b with
  | none => rfl
  | some s' => exact h2 s'

theorem proj_send1 {σ : Type} (hn : c.tasks.Nodup) {rank root ty : Nat}
    (hr : c.tasks[rank]? = some p) {rs : List Nat} (hd : rs.Nodup) (hm : rank ∈ rs) (hne : root ≠ rank)
    (out : Nat → σ → Body) (upd : σ → Body → Option σ) (es : List (Ev σ)) (s : σ) :
    proj p (rs.map (fun r => Ev.tr ⟨c, ty, r, root, 0⟩ false (out r) upd) ++ es) s =
      .send ⟨c, rank, ty, root, 0, out rank s⟩ (proj p es s) := by
  obtain ⟨l', h1, h2⟩ := proj_one hd hm (fun r => Ev.tr ⟨c, ty, r, root, 0⟩ false (out r) upd) (p := p)
    (fun q _ hq => ⟨fun e => hq ((rank_iff hn hr).mp e), fun e => hne ((rank_iff hn hr).mp e)⟩) es
  have h' : Chan.src ⟨c, ty, rank, root, 0⟩ = some p := hr
  rw [h1]
  simp only [proj, if_pos h', h2]
  rfl

theorem proc_eq {rank : Nat} (hr : c.tasks[rank]? = some p) : c.proc rank = p := by
  simp [Comm.proc, hr]

theorem proc_ne (hn : c.tasks.Nodup) {rank q : Nat} (hr : c.tasks[rank]? = some p)
    (hq : q < c.tasks.length) (hne : q ≠ rank) : c.proc q ≠ p := by
  intro e
  refine hne ((rank_iff hn hr).mp ?_)
  simpa [Comm.proc, hq] using e

theorem proj_loc1 (hn : c.tasks.Nodup) {rank : Nat} (hr : c.tasks[rank]? = some p)
    (f : Nat → PS → Option PS) (es : List (Ev PS)) (s : PS) :
    proj p ((List.range c.tasks.length).map (fun r => Ev.loc (c.proc r) (f r)) ++ es) s =
      match f rank s with
      | some s' => proj p es s'
      | none => .err := by
  have hlt := (List.getElem?_eq_some_iff.mp hr).1
  obtain ⟨l', h1, h2⟩ := proj_one List.nodup_range (List.mem_range.mpr hlt)
    (fun r => Ev.loc (c.proc r) (f r)) (p := p)
    (fun q hq hne => proc_ne hn hr (List.mem_range.mp hq) hne) es
  rw [h1]
  simp only [proj, if_pos (proc_eq hr)]
  cases f rank s with
  | none => rfl
  | some s' => exact h2 s'

theorem proj_bt1 (hn : c.tasks.Nodup) {rank root ty : Nat} {b : Body}
    (hr : c.tasks[rank]? = some p) {rs : List Nat} (hd : rs.Nodup) (hm : rank ∈ rs)
    (upd : PS → Body → Option PS) (es : List (Ev PS)) (s : PS) :
    proj p (rs.map (fun r => Ev.bt ⟨c, ty, root, r, 0⟩ b upd) ++ es) s =
      .recv ⟨c, rank, ty, root, 0⟩ fun b =>
        match upd s b with
        | some s' => proj p es s'
        | none => .err := by
  obtain ⟨l', h1, h2⟩ := proj_one hd hm (fun r => Ev.bt ⟨c, ty, root, r, 0⟩ b upd) (p := p)
    (fun q _ hq => fun e => hq ((rank_iff hn hr).mp e)) es
  have h' : Chan.dst ⟨c, ty, root, rank, 0⟩ = some p := hr
  rw [h1]
  simp only [proj, if_pos h']
  congr 1
  funext b
  cases upd s b with
  | none => rfl
  | some s' => exact h2 s'

/-! #### split -/

theorem splitMsgs_cons {async : Bool} {color hint : Nat → Int} (x : Nat) (l : List Nat) :
    splitMsgs c async color hint (x :: l) =
      (others c.tasks.length x).map (splitEv c async color hint x) ++ splitMsgs c async color hint l := by
  simp [splitMsgs]

theorem proj_splitSync (hn : c.tasks.Nodup) {rank : Nat} (hr : c.tasks[rank]? = some p)
    (color hint : Nat → Int) (es : List (Ev PS)) : ∀ (l : List Nat) (s : PS),
    proj p (splitMsgs c false color hint l ++ es) s =
      splitSync c rank (Split.bytes ⟨color rank, hint rank, rank⟩) l s (proj p es) := by
  intro l
  have hlt := (List.getElem?_eq_some_iff.mp hr).1
  induction l with
  | nil => exact fun _ => rfl
  | cons x l ih =>
    intro s
    rw [splitMsgs_cons, List.append_assoc]
    by_cases hx : x = rank
    · subst hx
      simp only [splitSync, if_pos, ← ih s]
      exact proj_send hr _ _ _ _ _
    · simp only [splitSync, if_neg hx]
      refine (proj_recv1 hn hr (others_nodup _ _) (mem_others.mpr ⟨hlt, fun e => hx e.symm⟩) hx _ _ _ _).trans ?_
      congr 1
      funext b
      cases splitGot s b with
      | none => rfl
      | some s' => exact ih s'

theorem proj_splitAsync (hn : c.tasks.Nodup) {rank : Nat} (hr : c.tasks[rank]? = some p)
    (color hint : Nat → Int) (es : List (Ev PS)) : ∀ (l : List Nat) (s : PS),
    proj p (splitMsgs c true color hint l ++ es) s =
      recvAll c rank tSplit splitGot (l.filter (· ≠ rank)) s (proj p es) := by
  intro l
  have hlt := (List.getElem?_eq_some_iff.mp hr).1
  induction l with
  | nil => exact fun _ => rfl
  | cons x l ih =>
    intro s
    rw [splitMsgs_cons, List.append_assoc]
    by_cases hx : x = rank
    · subst hx
      rw [proj_skip]
      · rw [ih]; simp
      · intro e he
        obtain ⟨q, hq, rfl⟩ := List.mem_map.mp he
        exact fun e => (mem_others.mp hq).2 ((rank_iff hn hr).mp e)
    · have : (x :: l).filter (· ≠ rank) = x :: l.filter (· ≠ rank) := by simp [hx]
      rw [this]
      refine (proj_bt1 hn hr (others_nodup _ _) (mem_others.mpr ⟨hlt, fun e => hx e.symm⟩) _ _ _).trans ?_
      simp only [recvAll]
      congr 1
      funext b
      cases splitGot s b with
      | none => rfl
      | some s' => exact ih s'

theorem bsends_off {root ty : Nat} {b : Body} (upd : PS → Body → Option PS) (es : List (Ev PS))
    (h : c.tasks[root]? ≠ some p) (rs : List Nat) :
    bsends p (rs.map (fun r => Ev.bt ⟨c, ty, root, r, 0⟩ b upd) ++ es) = bsends p es := by
  induction rs with
  | nil => rfl
  | cons r rs ih =>
    have h' : ¬ Chan.src ⟨c, ty, root, r, 0⟩ = some p := h
    simp only [List.map_cons, List.cons_append, bsends, if_neg h', ih]

theorem bsends_on {rank ty : Nat} {b : Body} (upd : PS → Body → Option PS) (es : List (Ev PS))
    (h : c.tasks[rank]? = some p) (rs : List Nat) :
    bsends p (rs.map (fun r => Ev.bt ⟨c, ty, rank, r, 0⟩ b upd) ++ es) =
      (rs.map fun r => ⟨c, rank, ty, r, 0, b⟩) ++ bsends p es := by
  induction rs with
  | nil => rfl
  | cons r rs ih =>
    have h' : Chan.src ⟨c, ty, rank, r, 0⟩ = some p := h
    simp only [List.map_cons, List.cons_append, bsends, if_pos h', ih]

theorem bsends_split (hn : c.tasks.Nodup) {rank : Nat} (hr : c.tasks[rank]? = some p)
    (color hint : Nat → Int) (es : List (Ev PS)) : ∀ l : List Nat, l.Nodup →
    bsends p (splitMsgs c true color hint l ++ es) =
      (if rank ∈ l then (others c.tasks.length rank).map fun r =>
        ⟨c, rank, tSplit, r, 0, Split.bytes ⟨color rank, hint rank, rank⟩⟩ else []) ++ bsends p es := by
  intro l
  induction l with
  | nil => exact fun _ => rfl
  | cons x l ih =>
    intro hl
    obtain ⟨hx, hl⟩ := List.nodup_cons.mp hl
    rw [splitMsgs_cons, List.append_assoc]
    by_cases he : x = rank
    · subst he
      refine (bsends_on _ _ hr _).trans ?_
      rw [ih hl]
      simp [hx]
    · refine (bsends_off _ _ (fun e => he ((rank_iff hn hr).mp e)) _).trans ?_
      rw [ih hl]
      have : ¬ rank = x := fun e => he e.symm
      simp [this]

end

/-- The events of a call give the program of a process taking part. -/
theorem Call.evs_prog {F : Flt} (d : Call) (hok : d.Arg S) {p rank : Nat} (hn : d.comm.tasks.Nodup)
    (hr : d.comm.tasks[rank]? = some p) (es : List (Ev PS)) (s : PS) :
    proj p (d.evs F ++ es) s = d.prog F rank s (proj p es) := by
  have hlt := (List.getElem?_eq_some_iff.mp hr).1
  have hb : ∀ (c : Comm) (x size root : Nat) (es : List (Ev PS)) (s : PS), c.tasks.Nodup →
      c.tasks[rank]? = some p →
      proj p (bcastE c x size root ++ es) s = bcastP c rank x size root s (proj p es) := by
    intro c x size root es s hn hr
    have hlt := (List.getElem?_eq_some_iff.mp hr).1
    simp only [bcastP]
    split
    · rename_i h; subst h
      exact proj_send hr _ _ _ _ _
    · rename_i h
      refine (proj_recv1 hn hr (others_nodup _ _) (mem_others.mpr ⟨hlt, h⟩) (fun e => h e.symm) _ _ _ _).trans ?_
      congr 1
      funext b
      cases bcastGot size x s b <;> rfl
  have hd : ∀ (c : Comm) (inp : Option Nat) (out n : Nat) (ty : MTy) (op : MOp) (root : Nat)
      (es : List (Ev PS)) (s : PS), c.tasks.Nodup → c.tasks[rank]? = some p → root < c.tasks.length →
      proj p (reduceE F c inp out n ty op root ++ es) s =
        reduceP F c rank inp out n ty op root s (proj p es) := by
    intro c inp out n ty op root es s hn hr hroot
    have hlt := (List.getElem?_eq_some_iff.mp hr).1
    simp only [reduceP, reduceE, List.cons_append, proj]
    split
    · rename_i h
      split
      · rename_i h2; subst h2
        exact proj_recv hn hr _ _ _ _ (fun h => (mem_others.mp h).2 rfl) _
      · rename_i h2
        exact absurd h (proc_ne hn hr hroot h2)
    · rename_i h
      have h2 : root ≠ rank := fun e => h (by rw [e]; exact proc_eq hr)
      rw [if_neg h2]
      exact proj_send1 hn hr (others_nodup _ _) (mem_others.mpr ⟨hlt, fun e => h2 e.symm⟩) h2
        (fun _ (s : PS) => (s.mem (inp.getD out)).take (n * ty.bytes)) _ _ _
  cases d with
  | bcast c x n ty root => exact hb _ _ _ _ _ _ hn hr
  | reduce c inp out n ty op root => exact hd _ _ _ _ _ _ _ _ _ hn hr hok.2
  | allreduce c inp out n ty op =>
    simp only [Call.evs, List.append_assoc, Call.prog, allreduceP]
    refine (hd c _ _ _ _ _ _ _ _ hn hr hok.2).trans ?_
    congr 1
    funext s
    exact hb _ _ _ _ _ _ hn hr
  | barrier c =>
    simp only [Call.evs, Call.prog, barrierE, barrierP, List.append_assoc]
    split
    · rename_i h; subst h
      refine (proj_recv hn hr (fun _ _ => []) _ _ _ (fun h => (mem_others.mp h).2 rfl) _).trans ?_
      congr 1
      funext s
      exact proj_ssend hr _ _ _ _ _
    · rename_i h
      have h' : 0 ≠ rank := fun e => h e.symm
      refine (proj_send1 hn hr (others_nodup _ _) (mem_others.mpr ⟨hlt, h⟩) h' (fun _ _ => []) _ _ _).trans ?_
      congr 1
      exact proj_recv1 hn hr (others_nodup _ _) (mem_others.mpr ⟨hlt, h⟩) h' _ _ _ _
  | p2p c sd r tag x size y cap =>
    have e : ∀ i : Nat, c.tasks[i]? = some p ↔ rank = i := fun i =>
      (rank_iff (c := c) hn hr).trans eq_comm
    simp only [Call.evs, Call.prog, p2pE, p2pP, List.cons_append, List.nil_append, proj, Chan.src, Chan.dst, e]
    split
    · rfl
    · split
      · congr 1
        funext b
        cases recvGot y cap s b <;> rfl
      · rfl
  | split c async color hint =>
    have hn : c.tasks.Nodup := hn
    have hr : c.tasks[rank]? = some p := hr
    have hlt : rank < c.tasks.length := hlt
    simp only [Call.evs, splitE, List.append_assoc, Call.prog, splitP, splitInits]
    refine (proj_loc1 hn hr (fun r s => some (splitInit ⟨color r, hint r, r⟩ s)) _ _).trans ?_
    simp only
    have hend : ∀ s, proj p (splitEnds c color ++ es) s =
        match splitEnd c rank (color rank) s with
        | some s' => proj p es s'
        | none => .err := fun s => proj_loc1 hn hr (fun r => splitEnd c r (color r)) es s
    have hmem : p ∈ c.tasks := List.mem_of_getElem? hr
    cases async with
    | true =>
      simp only [if_pos, List.cons_append, List.append_assoc, proj, hmem, List.nil_append]
      rw [bsends_split (c := c) hn hr _ _ _ _ List.nodup_range, proj_splitAsync (c := c) hn hr]
      have hlt' : rank ∈ List.range c.tasks.length := List.mem_range.mpr hlt
      rw [if_pos hlt']
      simp only [bsends, List.append_nil]
      congr 1
      simp only [others]
      congr 1
      funext s
      simp only [proj, hmem, if_pos, hend]
      cases splitEnd c rank (color rank) s <;> rfl
    | false =>
      simp only [Bool.false_eq_true, if_false]
      rw [proj_splitSync (c := c) hn hr]
      congr 1
      funext s
      exact hend s

theorem Call.evs_skip {F : Flt} (d : Call) (hok : d.Arg S) {p : Nat} (hp : p ∉ d.comm.tasks)
    (es : List (Ev PS)) (s : PS) : proj p (d.evs F ++ es) s = proj p es s := by
  refine proj_skip _ _ _ ?_
  have hr : ∀ r : Nat, d.comm.tasks[r]? ≠ some p := fun r h => hp (List.mem_of_getElem? h)
  have hq : ∀ r : Nat, r < d.comm.tasks.length → d.comm.proc r ≠ p := by
    intro r h e
    exact hr r (by simpa [Comm.proc, h] using e)
  have hb : ∀ (c : Comm) (x size root : Nat), (∀ r : Nat, c.tasks[r]? ≠ some p) →
      ∀ e ∈ bcastE c x size root, e.off p := by
    intro c x size root hr e he
    obtain ⟨q, _, rfl⟩ := List.mem_map.mp he
    exact ⟨hr _, hr _⟩
  have hd : ∀ (c : Comm) (inp : Option Nat) (out n : Nat) (ty : MTy) (op : MOp) (root : Nat),
      (∀ r : Nat, c.tasks[r]? ≠ some p) → c.proc root ≠ p →
      ∀ e ∈ reduceE F c inp out n ty op root, e.off p := by
    intro c inp out n ty op root hr hq e he
    rcases List.mem_cons.mp he with rfl | he
    · exact hq
    · obtain ⟨q, _, rfl⟩ := List.mem_map.mp he
      exact ⟨hr _, hr _⟩
  cases d with
  | bcast c x n ty root => exact hb _ _ _ _ hr
  | reduce c inp out n ty op root => exact hd _ _ _ _ _ _ _ hr (hq _ hok.2)
  | allreduce c inp out n ty op =>
    intro e he
    rcases List.mem_append.mp he with he | he
    · exact hd _ _ _ _ _ _ _ hr (hq _ hok.2) e he
    · exact hb _ _ _ _ hr e he
  | barrier c =>
    intro e he
    rcases List.mem_append.mp he with he | he
    all_goals
      obtain ⟨q, _, rfl⟩ := List.mem_map.mp he
      exact ⟨hr _, hr _⟩
  | p2p c sd r tag x size y cap =>
    intro e he
    obtain rfl := List.mem_singleton.mp he
    exact ⟨hr _, hr _⟩
  | split c async color hint =>
    have hm : ∀ e ∈ splitMsgs c async color hint (List.range c.tasks.length), e.off p := by
      intro e he
      obtain ⟨x, _, he⟩ := List.mem_flatMap.mp he
      obtain ⟨q, _, rfl⟩ := List.mem_map.mp he
      cases async with
      | true => exact hr _
      | false => exact ⟨hr _, hr _⟩
    intro e he
    simp only [Call.evs, splitE, List.mem_append] at he
    rcases he with (he | he) | he
    · obtain ⟨q, hq', rfl⟩ := List.mem_map.mp he
      exact hq _ (List.mem_range.mp hq')
    · cases async with
      | true =>
        simp only [if_pos, List.mem_append, List.mem_cons, List.not_mem_nil, or_false] at he
        rcases he with (rfl | he) | rfl
        · exact hp
        · exact hm e he
        · exact hp
      | false => exact hm e (by simpa using he)
    · obtain ⟨q, hq', rfl⟩ := List.mem_map.mp he
      exact hq _ (List.mem_range.mp hq')

/-- Events of a sequence of calls. -/
def evsAll (F : Flt) (ds : List Call) : List (Ev PS) := ds.flatMap (Call.evs F)

theorem evsAll_wf {F : Flt} : ∀ {ds : List Call}, (∀ d ∈ ds, d.Arg S) → WF S none (evsAll F ds) := by
  intro ds
  induction ds with
  | nil => exact fun _ => trivial
  | cons d ds ih =>
    intro h
    exact Call.evs_wf (h d (by simp)) (ih fun x hx => h x (by simp [hx]))

theorem evsAll_prog {F : Flt} (hS : Sep S) (p : Nat) : ∀ {ds : List Call}, (∀ d ∈ ds, d.Arg S) → ∀ s,
    proj p (evsAll F ds) s = callsP F p ds s := by
  intro ds
  induction ds with
  | nil => exact fun _ _ => rfl
  | cons d ds ih =>
    intro h s
    have h1 := ih fun x hx => h x (by simp [hx])
    have hok := h d (by simp)
    have hc : S d.comm := hok.comm
    show proj p (d.evs F ++ evsAll F ds) s = _
    simp only [callsP]
    split
    · rename_i hp
      rw [Call.evs_prog d hok (hS.nodup _ hc) (rank := d.comm.tasks.idxOf p)
        (by rw [List.getElem?_eq_getElem (List.idxOf_lt_length_of_mem hp)]; simp)]
      congr 1
      exact funext h1
    · rename_i hp
      rw [Call.evs_skip d hok hp, h1]

end Laik.Mm
