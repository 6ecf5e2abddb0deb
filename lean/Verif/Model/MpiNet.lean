import Verif.Model.MpiPrepare
import Verif.Model.NetExecLemmas
import Verif.Model.CombineLemmas
/-!
# From the effect of each process with given streams to executions

If the bytes each process sends are the bytes its partners take as input, and
messages have same sizes and are ordered, every execution of all processes has
the effect of running each process alone with these streams.
-/

namespace Laik.Mp

open NX

variable {β : Type}

/-- Bytes sent, received or contributed by an action in state `s`. -/
def PCtx.pay (c : PCtx β) (inp : CKey → Nat → β) (s : MSt CKey β) : CBody β → List β
  | .comm (.send _) a _ cnt => readMem s.mem a (cnt * c.es)
  | .comm (.recv q) _ _ cnt => (List.range (cnt * c.es)).map (fun i => inp (.recv q) (s.pos (.recv q) + i))
  | .comm (.red _ _) a _ cnt => readMem s.mem a (cnt * c.es)
  | .comm (.gred _ _ _) _ _ _ => []
  | .other _ => []

/-- Actions with their expected contents, starting in state `s`. -/
def PCtx.ghosts (c : PCtx β) (inp : CKey → Nat → β) : MSt CKey β → List (Nat × CBody β) → List (GX (Nat → β) β)
  | _, [] => []
  | s, x :: l => ⟨c.exec x.2, c.pay inp s x.2, x.1⟩ :: c.ghosts inp ((x.2.op c.env inp).run s) l

def PCtx.runB (c : PCtx β) (inp : CKey → Nat → β) (s : MSt CKey β) (l : List (Nat × CBody β)) : MSt CKey β :=
  runOps (l.map (fun x => x.2.op c.env inp)) s

/-- Actions which may be left for the execution. -/
def PCtx.okB (c : PCtx β) (b : CBody β) : Prop :=
  (∀ op, b = .other op → op.key = none) ∧ (∀ i o op s d n, b ≠ .comm (.gred i o op) s d n) ∧
  (∀ root op s d n, b = .comm (.red root op) s d n → -1 ≤ root)

/-- Key of a reduction. -/
def redKey (b : CBody β) : Option (Int × Nat) :=
  match b with
  | .comm (.red root op) _ _ _ => some (root, op)
  | _ => none

theorem collNo_inj {r r' : Int} {o o' : Nat} (h1 : -1 ≤ r) (h2 : -1 ≤ r') (h : collNo r o = collNo r' o') : r = r' ∧ o = o' := by
  unfold collNo at h
  rw [Nat.pair_eq_pair] at h
  omega

theorem writeMem_map (m : Nat → β) (d n : Nat) (g : Nat → β) (x : Nat) :
    writeMem m d ((List.range n).map g) x = if d ≤ x ∧ x < d + n then g (x - d) else m x := by
  unfold writeMem
  by_cases h1 : d ≤ x
  · rw [if_pos h1]
    by_cases h2 : x < d + n
    · rw [if_pos ⟨h1, h2⟩, List.getD_eq_getElem?_getD, List.getElem?_map, List.getElem?_range (by omega)]
      rfl
    · rw [if_neg (by omega), List.getD_eq_getElem?_getD, List.getElem?_eq_none (by simp; omega)]
      rfl
  · rw [if_neg h1, if_neg (by omega)]

theorem commOp_mem (inp : CKey → Nat → β) (k : CKey) (i : Bool) (a d n : Nat) (s : MSt CKey β) (y : Nat) :
    ((commOp inp k i true a d n).run s).mem y = if d ≤ y ∧ y < d + n then inp k (s.pos k + (y - d)) else s.mem y := by
  rw [run_mem]
  simp only [commOp, MOp.posOf, Bool.true_and, decide_eq_true_eq, Option.map_some, Option.getD_some]

/-- Memory after one action. -/
theorem exec_mem (c : PCtx β) (inp : CKey → Nat → β) (res : Nat → List β) (s : MSt CKey β) (x : Nat × CBody β) (hok : c.okB x.2)
    (hres : ∀ root op a d n, x.2 = .comm (.red root op) a d n → root = c.me ∨ root = -1 →
      res (collNo root op) = (List.range (n * c.es)).map (fun i => inp (.red root op) (s.pos (.red root op) + i))) :
    gst res s.mem ⟨c.exec x.2, c.pay inp s x.2, x.1⟩ = ((x.2.op c.env inp).run s).mem := by
  obtain ⟨r, b⟩ := x
  obtain ⟨ho, hg, hr⟩ := hok
  simp only at *
  cases b with
  | other op =>
    have hk := ho op rfl
    simp only [gst, PCtx.exec, CBody.op]
    funext y
    simp only [run_mem, MOp.posOf, hk, Option.map_none, Option.getD_none]
    rfl
  | comm k a d n =>
    cases k with
    | gred i o op => exact absurd rfl (hg i o op a d n)
    | send q =>
      simp only [gst, PCtx.exec, CBody.op]
      funext y
      simp [run_mem, commOp, CEnv.isOut]
    | recv q =>
      simp only [gst, PCtx.exec, PCtx.pay]
      funext y
      rw [writeMem_map]
      exact (commOp_mem inp (.recv q) false a d (n * c.es) s y).symm
    | red root op =>
      simp only [gst, PCtx.exec, CBody.op]
      funext y
      by_cases hout : root = c.me ∨ root = -1
      · rw [if_pos hout, hres root op a d n rfl hout, List.take_of_length_le (by simp), writeMem_map, run_mem]
        have : c.env.isOut (.red root op) = true := by
          simp only [CEnv.isOut, PCtx.env, Bool.or_eq_true, beq_iff_eq]; exact hout
        simp only [commOp, this, Bool.true_and, decide_eq_true_eq, MOp.posOf, Option.map_some, Option.getD_some]
        rfl
      · rw [if_neg hout, run_mem]
        have : c.env.isOut (.red root op) = false := by
          rw [Bool.eq_false_iff]
          simp only [CEnv.isOut, PCtx.env, ne_eq, Bool.or_eq_true, beq_iff_eq]; exact hout
        simp [commOp, this]

theorem pos_run {e : CEnv} {inp : CKey → Nat → β} {b : CBody β} {s : MSt CKey β} {k : CKey} (h : (b.op e inp).key ≠ some k) :
    ((b.op e inp).run s).pos k = s.pos k := by
  simp [MOp.run, h]

/-- Expected contents are right for one process with its streams. -/
theorem ghosts_walk (c : PCtx β) (inp : CKey → Nat → β) (res : Nat → List β) (l : List (Nat × CBody β)) :
    ∀ s : MSt CKey β, (∀ x ∈ l, c.okB x.2) → (l.filterMap (fun x => redKey x.2)).Nodup →
      (∀ x ∈ l, ∀ root op, redKey x.2 = some (root, op) → s.pos (.red root op) = 0) →
      (∀ x ∈ l, ∀ root op a d n, x.2 = .comm (.red root op) a d n → root = c.me ∨ root = -1 →
        res (collNo root op) = (List.range (n * c.es)).map (inp (.red root op))) →
      XWalk res s.mem (c.ghosts inp s l) ∧ XFinal res s.mem (c.ghosts inp s l) = (c.runB inp s l).mem := by
  induction l with
  | nil => intro s _ _ _ _; exact ⟨trivial, rfl⟩
  | cons x l ih =>
    intro s hok hnd hpos hres
    have hm := exec_mem c inp res s x (hok x List.mem_cons_self) (by
      intro root op a d n e ho
      rw [hres x List.mem_cons_self root op a d n e ho]
      have := hpos x List.mem_cons_self root op (by rw [e]; rfl)
      rw [this]
      apply List.map_congr_left
      intro i _
      rw [Nat.zero_add])
    have hnd' : (l.filterMap (fun x => redKey x.2)).Nodup := by
      rw [List.filterMap_cons] at hnd
      cases e : redKey x.2 with
      | none => rw [e] at hnd; exact hnd
      | some v => rw [e] at hnd; exact (List.nodup_cons.1 hnd).2
    obtain ⟨i1, i2⟩ := ih ((x.2.op c.env inp).run s) (fun y hy => hok y (List.mem_cons_of_mem _ hy)) hnd' (by
      intro y hy root op hk
      rw [pos_run]
      · exact hpos y (List.mem_cons_of_mem _ hy) root op hk
      · intro hx
        have hxk : redKey x.2 = some (root, op) := by
          have ho := (hok x List.mem_cons_self).1
          cases hb : x.2 with
          | other o => rw [hb] at hx; simp only [CBody.op] at hx; rw [ho o hb] at hx; cases hx
          | comm k a d n =>
            rw [hb] at hx
            simp only [CBody.op, commOp, Option.some.injEq] at hx
            subst hx; rfl
        rw [List.filterMap_cons] at hnd
        rw [hxk] at hnd
        exact (List.nodup_cons.1 hnd).1 (List.mem_filterMap.2 ⟨y, hy, hk⟩))
      (fun y hy => hres y (List.mem_cons_of_mem _ hy))
    refine ⟨⟨?_, ?_⟩, ?_⟩
    · unfold expects
      cases hb : x.2 with
      | other o => trivial
      | comm k a d n =>
        cases k with
        | gred i o op => exact absurd hb ((hok x List.mem_cons_self).2.1 i o op a d n)
        | send q => simp only [hb, PCtx.exec, PCtx.pay]
        | recv q => simp only [hb, PCtx.exec, PCtx.pay, List.length_map, List.length_range]
        | red root op => simp only [hb, PCtx.exec, PCtx.pay]
    · rw [hm]; exact i1
    · show XFinal res (gst res s.mem _) _ = _
      rw [hm, i2]
      rfl

/-! ### Messages -/

/-- Round and size in bytes of the messages with key `k`. -/
def PCtx.sizes (c : PCtx β) (k : CKey) (l : List (Nat × CBody β)) : List (Nat × Nat) :=
  l.filterMap (fun x => match x.2 with
    | .comm k' _ _ n => if k' = k then some (x.1, n * c.es) else none
    | .other _ => none)

theorem sizes_cons_comm (c : PCtx β) (k k' : CKey) (r a d n : Nat) (l : List (Nat × CBody β)) :
    c.sizes k ((r, .comm k' a d n) :: l) = if k' = k then (r, n * c.es) :: c.sizes k l else c.sizes k l := by
  unfold PCtx.sizes
  rw [List.filterMap_cons]
  by_cases h : k' = k <;> simp [h]

theorem sizes_cons_other (c : PCtx β) (k : CKey) (r : Nat) (op : MOp CKey β) (l : List (Nat × CBody β)) :
    c.sizes k ((r, .other op) :: l) = c.sizes k l := rfl

theorem readMem_length (m : Nat → β) (a n : Nat) : (readMem m a n).length = n := by simp [readMem]

theorem exec_kind (c : PCtx β) (b : CBody β) : (∀ q, (c.exec b).kind = .send q ↔ ∃ a d n, b = .comm (.send q) a d n) ∧
    (∀ q, (c.exec b).kind = .recv q ↔ ∃ a d n, b = .comm (.recv q) a d n) := by
  cases b with
  | other o => exact ⟨fun q => ⟨fun h => (by cases h), fun ⟨_, _, _, h⟩ => (by cases h)⟩, fun q => ⟨fun h => (by cases h), fun ⟨_, _, _, h⟩ => (by cases h)⟩⟩
  | comm k a d n =>
    cases k with
    | send q' =>
      refine ⟨fun q => ⟨fun h => ?_, fun ⟨_, _, _, h⟩ => ?_⟩, fun q => ⟨fun h => (by cases h), fun ⟨_, _, _, h⟩ => (by cases h)⟩⟩
      · cases h; exact ⟨a, d, n, rfl⟩
      · cases h; rfl
    | recv q' =>
      refine ⟨fun q => ⟨fun h => (by cases h), fun ⟨_, _, _, h⟩ => (by cases h)⟩, fun q => ⟨fun h => ?_, fun ⟨_, _, _, h⟩ => ?_⟩⟩
      · cases h; exact ⟨a, d, n, rfl⟩
      · cases h; rfl
    | gred i o op => exact ⟨fun q => ⟨fun h => (by cases h), fun ⟨_, _, _, h⟩ => (by cases h)⟩, fun q => ⟨fun h => (by cases h), fun ⟨_, _, _, h⟩ => (by cases h)⟩⟩
    | red i op => exact ⟨fun q => ⟨fun h => (by cases h), fun ⟨_, _, _, h⟩ => (by cases h)⟩, fun q => ⟨fun h => (by cases h), fun ⟨_, _, _, h⟩ => (by cases h)⟩⟩

def sendsOf (q : Nat) (G : List (GX (Nat → β) β)) : List (Nat × List β) := (G.map GX.toAct).filterMap (sendKey id q)
def recvsOf (q : Nat) (G : List (GX (Nat → β) β)) : List (Nat × List β) := (G.map GX.toAct).filterMap (recvKey id q)

theorem sendsOf_cons (q : Nat) (g : GX (Nat → β) β) (G : List (GX (Nat → β) β)) :
    sendsOf q (g :: G) = if g.act.kind = .send q then (g.rnd, g.msg) :: sendsOf q G else sendsOf q G := by
  unfold sendsOf
  rw [List.map_cons, List.filterMap_cons]
  unfold sendKey GX.toAct
  by_cases h : g.act.kind = .send q
  · simp [h]
  · simp [h]

theorem recvsOf_cons (q : Nat) (g : GX (Nat → β) β) (G : List (GX (Nat → β) β)) :
    recvsOf q (g :: G) = if g.act.kind = .recv q then (g.rnd, g.msg) :: recvsOf q G else recvsOf q G := by
  unfold recvsOf
  rw [List.map_cons, List.filterMap_cons]
  unfold recvKey GX.toAct
  by_cases h : g.act.kind = .recv q
  · simp [h]
  · simp [h]

theorem sends_spec (c : PCtx β) (inp : CKey → Nat → β) (q : Nat) (l : List (Nat × CBody β)) : ∀ s : MSt CKey β, (∀ x ∈ l, c.okB x.2) →
    (c.runB inp s l).out (.send q) = s.out (.send q) ++ ((sendsOf q (c.ghosts inp s l)).map (·.2)).flatten ∧
    (sendsOf q (c.ghosts inp s l)).map (fun x => (x.1, x.2.length)) = c.sizes (.send q) l := by
  induction l with
  | nil => intro s _; simp [PCtx.runB, runOps, PCtx.ghosts, sendsOf, PCtx.sizes]
  | cons x l ih =>
    intro s hok
    obtain ⟨r, b⟩ := x
    obtain ⟨i1, i2⟩ := ih ((b.op c.env inp).run s) (fun y hy => hok y (List.mem_cons_of_mem _ hy))
    have hrun : c.runB inp s ((r, b) :: l) = c.runB inp ((b.op c.env inp).run s) l := rfl
    have hgh : c.ghosts inp s ((r, b) :: l) = ⟨c.exec b, c.pay inp s b, r⟩ :: c.ghosts inp ((b.op c.env inp).run s) l := rfl
    rw [hrun, hgh, sendsOf_cons]
    have hb := hok _ List.mem_cons_self
    by_cases h : (c.exec b).kind = .send q
    · obtain ⟨a, d, n, rfl⟩ := ((exec_kind c b).1 q).1 h
      rw [if_pos h, i1, sizes_cons_comm, if_pos rfl, List.map_cons, List.map_cons, i2]
      refine ⟨?_, ?_⟩
      · simp [MOp.run, CBody.op, commOp, CEnv.isIn, PCtx.pay, PCtx.env]
      · simp [PCtx.pay, readMem_length]
    · rw [if_neg h, i1, i2]
      refine ⟨?_, ?_⟩
      · congr 1
        cases b with
        | other o => simp [MOp.run, CBody.op, hb.1 o rfl]
        | comm k a d n =>
          have : k ≠ .send q := by rintro rfl; exact h rfl
          simp [MOp.run, CBody.op, commOp, this]
      · cases b with
        | other o => rfl
        | comm k a d n =>
          have : k ≠ .send q := by rintro rfl; exact h rfl
          rw [sizes_cons_comm, if_neg this]

theorem recvs_spec (c : PCtx β) (inp : CKey → Nat → β) (q : Nat) (l : List (Nat × CBody β)) : ∀ s : MSt CKey β, (∀ x ∈ l, c.okB x.2) →
    ((recvsOf q (c.ghosts inp s l)).map (·.2)).flatten =
      (List.range ((c.sizes (.recv q) l).map (·.2)).sum).map (fun i => inp (.recv q) (s.pos (.recv q) + i)) ∧
    (recvsOf q (c.ghosts inp s l)).map (fun x => (x.1, x.2.length)) = c.sizes (.recv q) l := by
  induction l with
  | nil => intro s _; simp [PCtx.ghosts, recvsOf, PCtx.sizes]
  | cons x l ih =>
    intro s hok
    obtain ⟨r, b⟩ := x
    obtain ⟨i1, i2⟩ := ih ((b.op c.env inp).run s) (fun y hy => hok y (List.mem_cons_of_mem _ hy))
    have hgh : c.ghosts inp s ((r, b) :: l) = ⟨c.exec b, c.pay inp s b, r⟩ :: c.ghosts inp ((b.op c.env inp).run s) l := rfl
    rw [hgh, recvsOf_cons]
    have hb := hok _ List.mem_cons_self
    by_cases h : (c.exec b).kind = .recv q
    · obtain ⟨a, d, n, rfl⟩ := ((exec_kind c b).2 q).1 h
      rw [if_pos h, sizes_cons_comm, if_pos rfl]
      refine ⟨?_, ?_⟩
      · rw [List.map_cons, List.flatten_cons, i1, List.map_cons, List.sum_cons, List.range_add, List.map_append, List.map_map]
        congr 1
        apply List.map_congr_left
        intro i _
        simp only [Function.comp, MOp.run, CBody.op, commOp, CEnv.isOut, if_true, PCtx.env]
        congr 1
        omega
      · rw [List.map_cons, i2]
        simp [PCtx.pay]
    · rw [if_neg h, i1, i2]
      have hk : (b.op c.env inp).key ≠ some (.recv q) := by
        cases b with
        | other o => simp [CBody.op, hb.1 o rfl]
        | comm k a d n =>
          have : k ≠ .recv q := by rintro rfl; exact h rfl
          simpa [CBody.op, commOp] using this
      have hsz : c.sizes (.recv q) ((r, b) :: l) = c.sizes (.recv q) l := by
        cases b with
        | other o => rfl
        | comm k a d n =>
          have : k ≠ .recv q := by rintro rfl; exact h rfl
          rw [sizes_cons_comm, if_neg this]
      rw [hsz, pos_run hk]
      exact ⟨rfl, rfl⟩

/-- Lists of parts with same sizes and same concatenation are equal. -/
theorem parts_eq {A B : List (Nat × List β)} (h1 : A.map (fun x => (x.1, x.2.length)) = B.map (fun x => (x.1, x.2.length)))
    (h2 : (A.map (·.2)).flatten = (B.map (·.2)).flatten) : A = B := by
  induction A generalizing B with
  | nil => cases B with
    | nil => rfl
    | cons => cases h1
  | cons a A ih =>
    cases B with
    | nil => cases h1
    | cons b B =>
      simp only [List.map_cons, List.cons.injEq, Prod.mk.injEq, List.flatten_cons] at h1 h2
      obtain ⟨e1, e2⟩ := List.append_inj h2 h1.1.2
      rw [ih h1.2 e2]
      congr 1
      exact Prod.ext h1.1.1 e1

/-! ### Collectives -/

theorem collId_exec (c : PCtx β) (msg : List β) (r : Nat) (b : CBody β) :
    (⟨c.exec b, msg, r⟩ : GX (Nat → β) β).collId = (redKey b).map (fun x => collNo x.1 x.2) := by
  cases b with
  | other o => rfl
  | comm k a d n => cases k <;> rfl

theorem ghosts_collId (c : PCtx β) (inp : CKey → Nat → β) (l : List (Nat × CBody β)) : ∀ s,
    (c.ghosts inp s l).filterMap GX.collId = (l.filterMap (fun x => redKey x.2)).map (fun x => collNo x.1 x.2) := by
  induction l with
  | nil => intro s; rfl
  | cons x l ih =>
    intro s
    show (_ :: c.ghosts inp _ l).filterMap GX.collId = _
    rw [List.filterMap_cons, collId_exec, List.filterMap_cons, ih]
    cases redKey x.2 <;> rfl

theorem ghosts_mem (c : PCtx β) (inp : CKey → Nat → β) (l : List (Nat × CBody β)) : ∀ s, ∀ g ∈ c.ghosts inp s l,
    ∃ x ∈ l, g.act = c.exec x.2 ∧ g.rnd = x.1 := by
  induction l with
  | nil => intro s g hg; cases hg
  | cons x l ih =>
    intro s g hg
    rcases List.mem_cons.1 hg with rfl | hg
    · exact ⟨x, List.mem_cons_self, rfl, rfl⟩
    · obtain ⟨y, hy, h⟩ := ih _ g hg
      exact ⟨y, List.mem_cons_of_mem _ hy, h⟩

/-- Contributions. -/
theorem ghosts_contrib (c : PCtx β) (inp : CKey → Nat → β) (root : Int) (op : Nat) (l : List (Nat × CBody β)) : ∀ s : MSt CKey β,
    (∀ x ∈ l, c.okB x.2) → (l.filterMap (fun x => redKey x.2)).Nodup → -1 ≤ root →
    ((root, op) ∉ l.filterMap (fun x => redKey x.2) → (c.runB inp s l).out (.red root op) = s.out (.red root op)) ∧
    ∀ g ∈ c.ghosts inp s l, g.collId = some (collNo root op) → (c.runB inp s l).out (.red root op) = s.out (.red root op) ++ g.msg := by
  induction l with
  | nil => intro s _ _ _; exact ⟨fun _ => rfl, fun g hg => by cases hg⟩
  | cons x l ih =>
    intro s hok hnd hroot
    obtain ⟨r, b⟩ := x
    have hb := hok _ List.mem_cons_self
    have hrun : c.runB inp s ((r, b) :: l) = c.runB inp ((b.op c.env inp).run s) l := rfl
    have hgh : c.ghosts inp s ((r, b) :: l) = ⟨c.exec b, c.pay inp s b, r⟩ :: c.ghosts inp ((b.op c.env inp).run s) l := rfl
    rw [List.filterMap_cons] at hnd
    rw [List.filterMap_cons, hrun, hgh]
    by_cases hk : redKey b = some (root, op)
    · rw [show redKey ((r, b) : Nat × CBody β).2 = some (root, op) from hk] at hnd ⊢
      obtain ⟨n1, n2⟩ := List.nodup_cons.1 hnd
      obtain ⟨j1, j2⟩ := ih ((b.op c.env inp).run s) (fun y hy => hok y (List.mem_cons_of_mem _ hy)) n2 hroot
      refine ⟨fun h => absurd List.mem_cons_self h, ?_⟩
      have hb' : ∃ a d n, b = .comm (.red root op) a d n := by
        cases b with
        | other o => cases hk
        | comm k a d n =>
          cases k with
          | red root' op' => cases hk; exact ⟨a, d, n, rfl⟩
          | send => cases hk
          | recv => cases hk
          | gred => cases hk
      obtain ⟨a, d, n, rfl⟩ := hb'
      intro g hg hc
      rcases List.mem_cons.1 hg with rfl | hg
      · rw [j1 n1]
        simp [MOp.run, CBody.op, commOp, CEnv.isIn, PCtx.pay, PCtx.env]
      · exfalso
        have : collNo root op ∈ (c.ghosts inp (((CBody.comm (.red root op) a d n).op c.env inp).run s) l).filterMap GX.collId :=
          List.mem_filterMap.2 ⟨g, hg, hc⟩
        rw [ghosts_collId] at this
        obtain ⟨⟨r', o'⟩, h1, h2⟩ := List.mem_map.1 this
        obtain ⟨y, hy, hyk⟩ := List.mem_filterMap.1 h1
        have hr' : -1 ≤ r' := by
          have := (hok y (List.mem_cons_of_mem _ hy)).2.2
          cases hyb : y.2 with
          | other => rw [hyb] at hyk; cases hyk
          | comm k a d n =>
            rw [hyb] at hyk
            cases k with
            | red r'' o'' => cases hyk; exact this _ _ _ _ _ hyb
            | send => cases hyk
            | recv => cases hyk
            | gred => cases hyk
        obtain ⟨rfl, rfl⟩ := collNo_inj hr' hroot h2
        exact n1 h1
    · have hop : ∀ s : MSt CKey β, ((b.op c.env inp).run s).out (.red root op) = s.out (.red root op) := by
        intro s
        cases b with
        | other o => simp [MOp.run, CBody.op, hb.1 o rfl]
        | comm k a d n =>
          have : k ≠ .red root op := by rintro rfl; exact hk rfl
          simp [MOp.run, CBody.op, commOp, this]
      have hnd' : (l.filterMap (fun x => redKey x.2)).Nodup := by
        cases e : redKey ((r, b) : Nat × CBody β).2 with
        | none => rw [e] at hnd; exact hnd
        | some v => rw [e] at hnd; exact (List.nodup_cons.1 hnd).2
      obtain ⟨j1, j2⟩ := ih ((b.op c.env inp).run s) (fun y hy => hok y (List.mem_cons_of_mem _ hy)) hnd' hroot
      rw [hop] at j1 j2
      refine ⟨fun h => j1 (fun hm => h ?_), ?_⟩
      · cases e : redKey ((r, b) : Nat × CBody β).2 with
        | none => simpa [e] using hm
        | some v => simp only [List.mem_cons]; exact Or.inr hm
      · intro g hg hc
        rcases List.mem_cons.1 hg with rfl | hg
        · exfalso
          rw [collId_exec] at hc
          cases e : redKey b with
          | none => rw [e] at hc; cases hc
          | some v =>
            rw [e] at hc
            simp only [Option.map_some, Option.some.injEq] at hc
            have hv : -1 ≤ v.1 := by
              cases b with
              | other => cases e
              | comm k a d n =>
                cases k with
                | red r'' o'' => cases e; exact hb.2.2 _ _ _ _ _ rfl
                | send => cases e
                | recv => cases e
                | gred => cases e
            obtain ⟨e1, e2⟩ := collNo_inj hv hroot hc
            apply hk
            rw [e, ← e1, ← e2]
        · exact j2 g hg hc

/-! ### All processes -/

/-- Global key of an action of process `p`. -/
def bkey (p : Nat) (x : Nat × CBody β) : Option GKey :=
  match x.2 with
  | .comm (.send q) _ _ _ => some (x.1, if p < q then 1 else 2, p, q)
  | .comm (.recv q) _ _ _ => some (x.1, if q < p then 1 else 2, q, p)
  | .comm (.red root op) _ _ _ => some (x.1, 0, collNo root op, 0)
  | _ => none

/-- The programs `P p` (with a number per action giving the order of messages) and
the streams `inp p` fit together. -/
structure NetOK (N : Nat) (cf : Nat → (Nat → List β) → Nat → List β) (c : Nat → PCtx β) (P : Nat → List (Nat × CBody β))
    (inp : Nat → CKey → Nat → β) (m0 : Nat → Nat → β) : Prop where
  me : ∀ p, (c p).me = p
  cfloc : ∀ k w w' p, (∀ q < N, w q = w' q) → cf k w p = cf k w' p
  out : ∀ p, N ≤ p → P p = []
  ok : ∀ p, ∀ x ∈ P p, (c p).okB x.2
  nself : ∀ p, ∀ x ∈ P p, ∀ a d n, x.2 ≠ .comm (.send p) a d n ∧ x.2 ≠ .comm (.recv p) a d n
  order : ∀ p, (P p).Pairwise (fun a b => ∀ ka kb, bkey p a = some ka → bkey p b = some kb → ¬ klt kb ka)
  sizes : ∀ p q, p ≠ q → (c p).sizes (.send q) (P p) = (c q).sizes (.recv p) (P q)
  streams : ∀ p q, p ≠ q → ∀ i, ∀ v, (((c p).runB (inp p) (MSt.ofMem (m0 p)) (P p)).out (.send q))[i]? = some v →
    inp q (.recv p) i = v
  colls : ∀ p < N, ∀ q < N, (P p).filterMap (fun x => redKey x.2) = (P q).filterMap (fun x => redKey x.2)
  nodup : ∀ p, ((P p).filterMap (fun x => redKey x.2)).Nodup
  rnds : ∀ p q, ∀ x ∈ P p, ∀ y ∈ P q, ∀ k, redKey x.2 = some k → redKey y.2 = some k → x.1 = y.1
  res : ∀ p, ∀ x ∈ P p, ∀ root op a d n, x.2 = .comm (.red root op) a d n → root = p ∨ root = -1 →
    cf (collNo root op) (fun q => ((c q).runB (inp q) (MSt.ofMem (m0 q)) (P q)).out (.red root op)) p =
      (List.range (n * (c p).es)).map (inp p (.red root op))

variable {N : Nat} {cf : Nat → (Nat → List β) → Nat → List β} {c : Nat → PCtx β} {P : Nat → List (Nat × CBody β)}
  {inp : Nat → CKey → Nat → β} {m0 : Nat → Nat → β}

theorem redKey_root {c : PCtx β} {b : CBody β} {k : Int × Nat} (hok : c.okB b) (h : redKey b = some k) : -1 ≤ k.1 := by
  cases b with
  | other => cases h
  | comm k' a d n =>
    cases k' with
    | red r'' o'' => cases h; exact hok.2.2 _ _ _ _ _ rfl
    | send => cases h
    | recv => cases h
    | gred => cases h

/-- Expected contents for all processes. -/
def netG (c : Nat → PCtx β) (P : Nat → List (Nat × CBody β)) (inp : Nat → CKey → Nat → β) (m0 : Nat → Nat → β) (p : Nat) :
    List (GX (Nat → β) β) := (c p).ghosts (inp p) (MSt.ofMem (m0 p)) (P p)

theorem ghosts_acts (c : PCtx β) (inp : CKey → Nat → β) (l : List (Nat × CBody β)) : ∀ s,
    (c.ghosts inp s l).map (·.act) = l.map (fun x => c.exec x.2) := by
  induction l with
  | nil => intro s; rfl
  | cons x l ih =>
    intro s
    show (_ :: c.ghosts inp _ l).map (·.act) = _
    rw [List.map_cons, ih]; rfl

theorem gkey_bkey (c : PCtx β) (msg : List β) (p : Nat) (x : Nat × CBody β) :
    gkey (α := List β) id p (GX.toAct (⟨c.exec x.2, msg, x.1⟩ : GX (Nat → β) β)) = bkey p x := by
  obtain ⟨r, b⟩ := x
  cases b with
  | other o => rfl
  | comm k a d n => cases k <;> rfl

theorem ghosts_pairwise (c : PCtx β) (inp : CKey → Nat → β) (p : Nat) (l : List (Nat × CBody β)) : ∀ s,
    l.Pairwise (fun a b => ∀ ka kb, bkey p a = some ka → bkey p b = some kb → ¬ klt kb ka) →
    ((c.ghosts inp s l).map GX.toAct).Pairwise (fun a b => ∀ ka kb, gkey id p a = some ka → gkey id p b = some kb → ¬ klt kb ka) := by
  induction l with
  | nil => intro s _; exact List.Pairwise.nil
  | cons x l ih =>
    intro s h
    rw [List.pairwise_cons] at h
    show (List.map GX.toAct (⟨c.exec x.2, _, x.1⟩ :: c.ghosts inp _ l)).Pairwise _
    rw [List.map_cons, List.pairwise_cons]
    refine ⟨?_, ih _ h.2⟩
    intro a ha ka kb h1 h2
    obtain ⟨g, hg, rfl⟩ := List.mem_map.1 ha
    obtain ⟨y, hy, e1, e2⟩ := ghosts_mem c inp l _ g hg
    have hg' : g = ⟨c.exec y.2, g.msg, y.1⟩ := by cases g; simp only at e1 e2; rw [e1, e2]
    rw [hg', gkey_bkey] at h2
    rw [gkey_bkey] at h1
    exact h.1 y hy ka kb h1 h2

theorem stream_eq {L : List β} {g : Nat → β} {n : Nat} (hn : L.length = n) (h : ∀ i v, L[i]? = some v → g i = v) :
    L = (List.range n).map g := by
  subst hn
  apply List.ext_getElem
  · simp
  · intro i h1 h2
    simp only [List.getElem_map, List.getElem_range]
    exact (h i _ (List.getElem?_eq_getElem h1)).symm

theorem flatten_length (A : List (Nat × List β)) : (A.map (·.2)).flatten.length = ((A.map (fun x => (x.1, x.2.length))).map (·.2)).sum := by
  induction A with
  | nil => rfl
  | cons a A ih => simp [ih]

theorem NetOK.pairs (h : NetOK N cf c P inp m0) (p q : Nat) :
    sendsOf q (netG c P inp m0 p) = recvsOf p (netG c P inp m0 q) := by
  by_cases hpq : p = q
  · subst hpq
    have h1 := (sends_spec (c p) (inp p) p (P p) (MSt.ofMem (m0 p)) (h.ok p)).2
    have h2 := (recvs_spec (c p) (inp p) p (P p) (MSt.ofMem (m0 p)) (h.ok p)).2
    have e1 : (c p).sizes (.send p) (P p) = [] := by
      unfold PCtx.sizes
      rw [List.filterMap_eq_nil_iff]
      intro x hx
      cases hb : x.2 with
      | other => rfl
      | comm k a d n =>
        simp only
        rw [if_neg]
        rintro rfl
        exact (h.nself p x hx a d n).1 hb
    have e2 : (c p).sizes (.recv p) (P p) = [] := by
      unfold PCtx.sizes
      rw [List.filterMap_eq_nil_iff]
      intro x hx
      cases hb : x.2 with
      | other => rfl
      | comm k a d n =>
        simp only
        rw [if_neg]
        rintro rfl
        exact (h.nself p x hx a d n).2 hb
    rw [e1] at h1
    rw [e2] at h2
    rw [List.map_eq_nil_iff] at h1 h2
    exact h1.trans h2.symm
  · obtain ⟨a1, a2⟩ := sends_spec (c p) (inp p) q (P p) (MSt.ofMem (m0 p)) (h.ok p)
    obtain ⟨b1, b2⟩ := recvs_spec (c q) (inp q) p (P q) (MSt.ofMem (m0 q)) (h.ok q)
    have hsz := h.sizes p q hpq
    apply parts_eq
    · exact (a2.trans hsz).trans b2.symm
    · have a1' : ((c p).runB (inp p) (MSt.ofMem (m0 p)) (P p)).out (.send q) =
          ((sendsOf q (netG c P inp m0 p)).map (·.2)).flatten := by
        rw [a1]; rfl
      have hb : ((recvsOf p (netG c P inp m0 q)).map (·.2)).flatten =
          (List.range (((c q).sizes (.recv p) (P q)).map (·.2)).sum).map (inp q (.recv p)) := by
        refine Eq.trans b1 (List.map_congr_left ?_)
        intro i _
        show inp q (.recv p) (0 + i) = _
        rw [Nat.zero_add]
      rw [hb, ← a1']
      apply stream_eq
      · rw [a1', flatten_length]
        have : (sendsOf q (netG c P inp m0 p)).map (fun x => (x.1, x.2.length)) = _ := a2
        rw [this, hsz]
      · intro i v hv
        exact h.streams p q hpq i v hv

theorem NetOK.execOK (h : NetOK N cf c P inp m0) : ExecOK (fun p => (netG c P inp m0 p).map GX.toAct) (fun _ => id) where
  order p := ghosts_pairwise (c p) (inp p) p (P p) _ (h.order p)
  nself p a ha := by
    obtain ⟨g, hg, rfl⟩ := List.mem_map.1 ha
    obtain ⟨x, hx, e1, _⟩ := ghosts_mem (c p) (inp p) (P p) _ g hg
    refine ⟨fun hk => ?_, fun hk => ?_⟩
    · have : g.act.kind = .send p := hk
      rw [e1] at this
      obtain ⟨a, d, n, e⟩ := ((exec_kind (c p) x.2).1 p).1 this
      exact (h.nself p x hx a d n).1 e
    · have : g.act.kind = .recv p := hk
      rw [e1] at this
      obtain ⟨a, d, n, e⟩ := ((exec_kind (c p) x.2).2 p).1 this
      exact (h.nself p x hx a d n).2 e
  pairs p q := h.pairs p q
  colls p q a ha b hb k h1 h2 := by
    obtain ⟨g, hg, rfl⟩ := List.mem_map.1 ha
    obtain ⟨g', hg', rfl⟩ := List.mem_map.1 hb
    obtain ⟨x, hx, e1, e2⟩ := ghosts_mem (c p) (inp p) (P p) _ g hg
    obtain ⟨y, hy, e3, e4⟩ := ghosts_mem (c q) (inp q) (P q) _ g' hg'
    have key : ∀ (cc : PCtx β) (z : CBody β), cc.okB z → (cc.exec z).kind = .coll k →
        ∃ w, redKey z = some w ∧ -1 ≤ w.1 ∧ collNo w.1 w.2 = k := by
      intro cc z hz hk
      cases z with
      | other => cases hk
      | comm k' a d n =>
        cases k' with
        | send => cases hk
        | recv => cases hk
        | gred => cases hk
        | red root op => cases hk; exact ⟨(root, op), rfl, hz.2.2 _ _ _ _ _ rfl, rfl⟩
    have h1' : g.act.kind = .coll k := h1
    have h2' : g'.act.kind = .coll k := h2
    rw [e1] at h1'
    rw [e3] at h2'
    obtain ⟨w, w1, w2, w3⟩ := key (c p) x.2 (h.ok p x hx) h1'
    obtain ⟨v, v1, v2, v3⟩ := key (c q) y.2 (h.ok q y hy) h2'
    obtain ⟨r1, r2⟩ := collNo_inj w2 v2 (w3.trans v3.symm)
    have : w = v := Prod.ext r1 r2
    show g.rnd = g'.rnd
    rw [e2, e4]
    exact h.rnds p q x hx y hy w w1 (this ▸ v1)

/-- Contributions of the processes to the collective `k`. -/
def netCT (c : Nat → PCtx β) (P : Nat → List (Nat × CBody β)) (inp : Nat → CKey → Nat → β) (m0 : Nat → Nat → β) (k q : Nat) : List β :=
  ((c q).runB (inp q) (MSt.ofMem (m0 q)) (P q)).out (.red ((Nat.unpair k).1 - 1 : Int) (Nat.unpair k).2)

theorem netCT_collNo {root : Int} (h : -1 ≤ root) (op q : Nat) :
    netCT c P inp m0 (collNo root op) q = ((c q).runB (inp q) (MSt.ofMem (m0 q)) (P q)).out (.red root op) := by
  unfold netCT collNo
  rw [Nat.unpair_pair]
  congr 2
  simp only
  omega

theorem NetOK.collOK (h : NetOK N cf c P inp m0) :
    CollOK N cf (netG c P inp m0) (netCT c P inp m0) (fun p k => cf k (netCT c P inp m0 k) p) where
  same p hp q hq := by
    unfold netG
    rw [ghosts_collId, ghosts_collId, h.colls p hp q hq]
  out p hp := by unfold netG; rw [h.out p hp]; rfl
  msg p hp g hg k hk := by
    have hk' := hk
    obtain ⟨x, hx, e1, e2⟩ := ghosts_mem (c p) (inp p) (P p) _ g hg
    have hg' : g = ⟨(c p).exec x.2, g.msg, x.1⟩ := by cases g; simp only at e1 e2; rw [e1, e2]
    rw [hg', collId_exec] at hk
    cases e : redKey x.2 with
    | none => rw [e] at hk; cases hk
    | some w =>
      rw [e] at hk
      simp only [Option.map_some, Option.some.injEq] at hk
      have hw := redKey_root (h.ok p x hx) e
      subst hk
      rw [netCT_collNo hw]
      have := (ghosts_contrib (c p) (inp p) w.1 w.2 (P p) (MSt.ofMem (m0 p)) (h.ok p) (h.nodup p) hw).2 g hg hk'
      rw [this]
      rfl
  res p hp k w hw := h.cfloc k _ _ p hw

/-- Executions of all processes. -/
theorem NetOK.inv (h : NetOK N cf c P inp m0) {k : Nat} {st : XState (Nat → β) β}
    (hs : XSteps N cf k (XState.start (fun p => (P p).map (fun x => (c p).exec x.2)) m0) st) :
    (XDone st ∨ ∃ st', XRStep N cf st st') ∧
    (XDone st → ∀ p, st.mem p = ((c p).runB (inp p) (MSt.ofMem (m0 p)) (P p)).mem) := by
  have hw : ∀ p, XWalk (fun k => cf k (netCT c P inp m0 k) p) (m0 p) (netG c P inp m0 p) ∧
      XFinal (fun k => cf k (netCT c P inp m0 k) p) (m0 p) (netG c P inp m0 p) = ((c p).runB (inp p) (MSt.ofMem (m0 p)) (P p)).mem := by
    intro p
    refine ghosts_walk (c p) (inp p) _ (P p) (MSt.ofMem (m0 p)) (h.ok p) (h.nodup p) (fun _ _ _ _ _ => rfl) ?_
    intro x hx root op a d n e ho
    have hr := (h.ok p x hx).2.2 _ _ _ _ _ e
    rw [h.me] at ho
    rw [← h.res p x hx root op a d n e ho]
    apply h.cfloc
    intro q _
    exact netCT_collNo hr op q
  have e : (fun p => (P p).map (fun x => (c p).exec x.2)) = fun p => (netG c P inp m0 p).map (·.act) := by
    funext p
    unfold netG
    rw [ghosts_acts]
  rw [e] at hs
  obtain ⟨u, k', inv⟩ := XInv.reach h.execOK h.collOK (fun p => (hw p).1) hs
  refine ⟨inv.progress h.execOK h.collOK, fun hd p => ?_⟩
  rw [inv.done hd.1 p, (hw p).2]

end Laik.Mp
