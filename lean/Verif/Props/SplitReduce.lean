import Verif.Model.NetLemmas
/-!
# C24: manual reductions
-/

namespace Laik

variable {V : Type}

/-! ### Specification -/

/-- Reduction of the inputs `x` of the given processes in the given order, from
the left. -/
def redSeq (c : RedCtx V) (x : Nat → V) : List Nat → V
  | [] => c.neutral
  | p :: l => l.foldl (fun a q => c.op a (x q)) (x p)

/-- `v` is a reduction of all inputs of group `inp`, in some order. -/
def IsReduction (c : RedCtx V) (x : Nat → V) (inp : List Nat) (v : V) : Prop :=
  ∃ l : List Nat, l.Perm inp ∧ v = redSeq c x l

/-- Memory of all processes before: inputs are `x`. -/
def StartOK (c : RedCtx V) (x : Nat → V) (inp : List Nat) (loc : Nat → LSt V) : Prop :=
  (∀ p ∈ inp, (loc p).frm = x p) ∧ ∀ p, c.inPlace p = true → (loc p).frm = (loc p).res

/-- All processes execute `prog`: no execution gets stuck, and when all are
finished, processes in `out` have a reduction of all inputs as result, and the
memory of other processes is unchanged. -/
structure Reduces (c : RedCtx V) (x : Nat → V) (inp out : List Nat) (prog : Nat → List RA) (loc : Nat → LSt V) : Prop where
  progress : ∀ s, NSteps c (NSt.start prog loc) s → ¬ s.done → ∃ s', NStep c s s'
  result : ∀ s, NSteps c (NSt.start prog loc) s → s.done → ∀ q ∈ out, IsReduction c x inp (s.loc q).res
  others : ∀ s, NSteps c (NSt.start prog loc) s → s.done → ∀ q, q ∉ out → s.loc q = loc q

/-- All processes of `out` have the same result. -/
def SameResult (c : RedCtx V) (out : List Nat) (prog : Nat → List RA) (loc : Nat → LSt V) : Prop :=
  ∀ s, NSteps c (NSt.start prog loc) s → s.done → ∀ q ∈ out, ∀ r ∈ out, (s.loc q).res = (s.loc r).res

/-! ### Order of inputs does not matter for associative and commutative operations -/

/-- For an associative and commutative operation, a reduction is unique. -/
theorem C24_reduction_unique (c : RedCtx V) (x : Nat → V) (inp : List Nat)
    (ha : ∀ a b d, c.op (c.op a b) d = c.op a (c.op b d)) (hc : ∀ a b, c.op a b = c.op b a) (v w : V)
    (hv : IsReduction c x inp v) (hw : IsReduction c x inp w) : v = w := by
  have hperm : ∀ l l' : List Nat, l.Perm l' → redSeq c x l = redSeq c x l' := by
    have hf : ∀ l l' : List Nat, l.Perm l' → ∀ a, l.foldl (fun a q => c.op a (x q)) a = l'.foldl (fun a q => c.op a (x q)) a := by
      intro l l' h
      induction h with
      | nil => intro a; rfl
      | cons y _ ih => intro a; exact ih _
      | swap y z l =>
        intro a
        simp only [List.foldl_cons]
        congr 1
        rw [ha, ha, hc (x z)]
      | trans _ _ ih1 ih2 => intro a; rw [ih1, ih2]
    intro l l' h
    induction h with
    | nil => rfl
    | cons y h _ => exact hf _ _ h _
    | swap y z l => simp only [redSeq, List.foldl_cons]; rw [hc]
    | trans _ _ ih1 ih2 => rw [ih1, ih2]
  obtain ⟨l, h1, rfl⟩ := hv
  obtain ⟨l', h2, rfl⟩ := hw
  exact hperm _ _ (h1.trans h2.symm)

/-! ### Local runs -/

/-- Order in which process `me` reduces. -/
def redOrder (inp : List Nat) (me : Nat) : List Nat := (if me ∈ inp then [me] else []) ++ others inp me

theorem mem_others {inp : List Nat} {me q : Nat} : q ∈ others inp me ↔ q ∈ inp ∧ q ≠ me := by
  simp [others]

private theorem perm_others {inp : List Nat} {me : Nat} (hnd : inp.Nodup) (h : me ∈ inp) : (me :: others inp me).Perm inp := by
  have hn : (others inp me).Nodup := hnd.filter _
  rw [List.perm_ext_iff_of_nodup (List.nodup_cons.2 ⟨by simp [mem_others], hn⟩) hnd]
  intro a
  rw [List.mem_cons, mem_others]
  constructor
  · rintro (rfl | h)
    · exact h
    · exact h.1
  · intro ha
    by_cases e : a = me
    · exact Or.inl e
    · exact Or.inr ⟨ha, e⟩

private theorem others_self {inp : List Nat} {me : Nat} (h : me ∉ inp) : others inp me = inp := by
  unfold others
  rw [List.filter_eq_self]
  intro a ha
  simp only [ne_eq, decide_eq_true_eq]
  rintro rfl; exact h ha

theorem redOrder_perm {inp : List Nat} {me : Nat} (hnd : inp.Nodup) : (redOrder inp me).Perm inp := by
  unfold redOrder
  by_cases h : me ∈ inp
  · rw [if_pos h]; exact perm_others hnd h
  · rw [if_neg h, List.nil_append, others_self h]

private theorem okO_noSend (c : RedCtx V) (v : Nat → Nat → V) (p : Nat) (l : List RA) (h : ∀ a ∈ l, a.dst = none) : ∀ s, okO c v p l s := by
  induction l with
  | nil => intro s; trivial
  | cons a l ih =>
    intro s
    refine ⟨?_, ih (fun b hb => h b (List.mem_cons_of_mem _ hb)) _⟩
    intro q y hy
    exact absurd (h a List.mem_cons_self) (by rw [sends_dst hy]; simp)

private theorem run_recv (c : RedCtx V) (v : Nat → Nat → V) (p : Nat) (L : List Nat) : ∀ k s,
    (runO c v p ((L.zipIdx k).map (fun x => RA.recvSlot x.2 x.1)) s).frm = s.frm ∧
    (runO c v p ((L.zipIdx k).map (fun x => RA.recvSlot x.2 x.1)) s).res = s.res ∧
    (∀ j, j < k → (runO c v p ((L.zipIdx k).map (fun x => RA.recvSlot x.2 x.1)) s).slot j = s.slot j) ∧
    (∀ j (hj : j < L.length), (runO c v p ((L.zipIdx k).map (fun x => RA.recvSlot x.2 x.1)) s).slot (k + j) = v L[j] p) := by
  induction L with
  | nil => intro k s; exact ⟨rfl, rfl, fun _ _ => rfl, by simp⟩
  | cons q L ih =>
    intro k s
    rw [List.zipIdx_cons, List.map_cons]
    simp only [runO]
    obtain ⟨h1, h2, h3, h4⟩ := ih (k + 1) ((RA.recvSlot k q).eff c p ((RA.recvSlot k q).rv v p s) s)
    refine ⟨h1, h2, ?_, ?_⟩
    · intro j hj
      rw [h3 j (by omega)]
      simp only [RA.eff, LSt.setSlot]
      rw [if_neg (by omega)]
    · intro j hj
      cases j with
      | zero =>
        refine (h3 k (by omega)).trans ?_
        simp [RA.eff, LSt.setSlot, RA.rv, RA.recvs]
      | succ j =>
        have := h4 j (by simpa using hj)
        rw [show k + (j + 1) = k + 1 + j by omega, this]
        rfl

private theorem run_red (c : RedCtx V) (v : Nat → Nat → V) (p : Nat) (L : List Nat) : ∀ s,
    (runO c v p (L.map RA.redSlot) s).res = L.foldl (fun a t => c.op a (s.slot t)) s.res := by
  induction L with
  | nil => intro s; rfl
  | cons t L ih => intro s; rw [List.map_cons]; simp only [runO]; rw [ih]; rfl

private theorem run_acc (c : RedCtx V) (v : Nat → Nat → V) (p : Nat) (L : List Nat) : ∀ s,
    (runO c v p (L.map RA.recvAcc) s).res = L.foldl (fun a q => c.op a (v q p)) s.res := by
  induction L with
  | nil => intro s; rfl
  | cons t L ih => intro s; rw [List.map_cons]; simp only [runO]; rw [ih]; rfl

private theorem run_sendRes (c : RedCtx V) (v : Nat → Nat → V) (p : Nat) (L : List Nat) : ∀ s,
    runO c v p (L.map RA.sendRes) s = s ∧ ((∀ q ∈ L, s.res = v p q) → okO c v p (L.map RA.sendRes) s) := by
  induction L with
  | nil => intro s; exact ⟨rfl, fun _ => trivial⟩
  | cons t L ih =>
    intro s
    rw [List.map_cons]
    refine ⟨(ih s).1, fun h => ⟨?_, (ih s).2 (fun q hq => h q (List.mem_cons_of_mem _ hq))⟩⟩
    intro q y hy
    simp only [RA.sends, Option.some.injEq, Prod.mk.injEq] at hy
    obtain ⟨rfl, rfl⟩ := hy
    exact h _ List.mem_cons_self

private theorem run_send (c : RedCtx V) (v : Nat → Nat → V) (p : Nat) (L : List Nat) : ∀ s,
    runO c v p (L.map RA.send) s = s ∧ ((∀ q ∈ L, s.frm = v p q) → okO c v p (L.map RA.send) s) := by
  induction L with
  | nil => intro s; exact ⟨rfl, fun _ => trivial⟩
  | cons t L ih =>
    intro s
    rw [List.map_cons]
    refine ⟨(ih s).1, fun h => ⟨?_, (ih s).2 (fun q hq => h q (List.mem_cons_of_mem _ hq))⟩⟩
    intro q y hy
    simp only [RA.sends, Option.some.injEq, Prod.mk.injEq] at hy
    obtain ⟨rfl, rfl⟩ := hy
    exact h _ List.mem_cons_self

private theorem length_others {inp : List Nat} {me : Nat} (hnd : inp.Nodup) (h : me ∈ inp) : inp.length = (others inp me).length + 1 := by
  rw [← (perm_others hnd h).length_eq]; rfl

private theorem fold_slots (c : RedCtx V) (x : Nat → V) (f : Nat → V) (L : List Nat) (g : Nat → Nat) (h : ∀ j (hj : j < L.length), f (g j) = x L[j]) (a : V) :
    ((List.range L.length).map g).foldl (fun a t => c.op a (f t)) a = L.foldl (fun a q => c.op a (x q)) a := by
  have e : (List.range L.length).map (fun t => f (g t)) = L.map x := by
    apply List.ext_getElem
    · simp
    · intro i h1 h2
      simp at h1
      simp [h i h1]
  have e1 : ((List.range L.length).map g).foldl (fun a t => c.op a (f t)) a = ((List.range L.length).map (fun t => f (g t))).foldl c.op a := by
    rw [List.foldl_map, List.foldl_map]
  rw [e1, e, List.foldl_map]

/-- `reduceLocal` calculates the reduction in the order `redOrder`. -/
private theorem run_local (c : RedCtx V) (v : Nat → Nat → V) (x : Nat → V) (inp : List Nat) (me : Nat) (hnd : inp.Nodup) (s : LSt V)
    (hf : me ∈ inp → s.frm = x me) (hip : c.inPlace me = true → s.frm = s.res)
    (hs : ∀ j (hj : j < (others inp me).length), s.slot j = x (others inp me)[j]) :
    (runO c v me (reduceLocal c inp me) s).res = redSeq c x (redOrder inp me) := by
  unfold reduceLocal redOrder bufOffs
  by_cases h0 : inp.length = 0
  · have : inp = [] := List.eq_nil_of_length_eq_zero h0
    subst this
    simp [others, redSeq, runO, RA.eff, LSt.setTo]
  · rw [if_neg h0]
    by_cases hm : me ∈ inp
    · rw [if_pos hm, if_pos hm, if_pos hm]
      have hlen := length_others hnd hm
      have hmap : (List.range (inp.length - 1)).map (fun t => RA.redSlot (([0] ++ List.range (others inp me).length).getD (t + 1) 0)) =
          (((List.range (others inp me).length).map id).map RA.redSlot) := by
        rw [List.map_map, hlen, Nat.add_sub_cancel]
        apply List.map_congr_left
        intro t ht
        rw [List.mem_range] at ht
        simp [List.getD_eq_getElem?_getD, ht]
      rw [hmap, runO_append, run_red]
      have key : ∀ s' : LSt V, s'.res = x me → s'.slot = s.slot →
          List.foldl (fun a t => c.op a (s'.slot t)) s'.res (List.map id (List.range (others inp me).length)) = redSeq c x ([me] ++ others inp me) := by
        intro s' h1 h2
        rw [h1, h2, fold_slots c x s.slot (others inp me) id hs]
        rfl
      by_cases hi : c.inPlace me = true
      · rw [if_pos hi]
        exact key s (by rw [← hip hi]; exact hf hm) rfl
      · rw [if_neg hi]
        exact key _ (by simp [runO, RA.eff, LSt.setTo, hf hm]) rfl
    · rw [if_neg hm, if_neg hm, if_neg hm]
      have ho := others_self hm
      rw [ho] at hs ⊢
      cases inp with
      | nil => simp at h0
      | cons q L =>
        have hmap : (List.range ((q :: L).length - 1)).map (fun t => RA.redSlot (([] ++ List.range (q :: L).length).getD (t + 1) 0)) =
            (((List.range L.length).map (· + 1)).map RA.redSlot) := by
          rw [List.map_map]
          apply List.map_congr_left
          intro t ht
          simp only [List.length_cons, Nat.add_sub_cancel, List.mem_range] at ht
          simp [List.getD_eq_getElem?_getD, ht]
        rw [hmap, runO_append, run_red]
        have h00 : (([] ++ List.range (q :: L).length : List Nat)).getD 0 0 = 0 := by
          simp [List.getD_eq_getElem?_getD]
        rw [h00]
        have e1 : (runO c v me [RA.copySlot 0] s).res = x q := by
          simp only [runO, RA.eff, LSt.setTo]
          exact hs 0 (by simp)
        have e2 : (runO c v me [RA.copySlot 0] s).slot = s.slot := rfl
        rw [e1, e2, fold_slots c x s.slot L (· + 1) (fun j hj => hs (j + 1) (by simpa using hj))]
        rfl

private theorem noSend_local (c : RedCtx V) (inp : List Nat) (me : Nat) : ∀ a ∈ recvOthers inp me ++ reduceLocal c inp me, a.dst = none := by
  intro a ha
  rcases List.mem_append.1 ha with ha | ha
  · obtain ⟨y, _, rfl⟩ := List.mem_map.1 ha; rfl
  · unfold reduceLocal at ha
    split at ha
    · rw [List.mem_singleton] at ha; subst ha; rfl
    · rcases List.mem_append.1 ha with ha | ha
      · split at ha
        · split at ha
          · simp at ha
          · rw [List.mem_singleton] at ha; subst ha; rfl
        · rw [List.mem_singleton] at ha; subst ha; rfl
      · obtain ⟨y, _, rfl⟩ := List.mem_map.1 ha; rfl

private theorem run_recv_local (c : RedCtx V) (v : Nat → Nat → V) (x : Nat → V) (inp : List Nat) (me : Nat) (hnd : inp.Nodup) (s : LSt V)
    (hf : me ∈ inp → s.frm = x me) (hip : c.inPlace me = true → s.frm = s.res) (hv : ∀ q ∈ others inp me, v q me = x q) :
    (runO c v me (recvOthers inp me ++ reduceLocal c inp me) s).res = redSeq c x (redOrder inp me) := by
  rw [runO_append]
  unfold recvOthers
  obtain ⟨h1, h2, _, h4⟩ := run_recv c v me (others inp me) 0 s
  apply run_local c v x inp me hnd
  · intro hm; rw [h1]; exact hf hm
  · intro hi; rw [h1, h2]; exact hip hi
  · intro j hj
    have := h4 j hj
    rw [Nat.zero_add] at this
    rw [this]
    exact hv _ (List.getElem_mem hj)

/-! ### Counting messages -/

private theorem nS_append (q : Nat) (a b : List RA) : nS q (a ++ b) = nS q a + nS q b := List.countP_append
private theorem nR_append (q : Nat) (a b : List RA) : nR q (a ++ b) = nR q a + nR q b := List.countP_append

private theorem nS_none {q : Nat} {l : List RA} (h : ∀ a ∈ l, a.dst = none) : nS q l = 0 := by
  unfold nS
  rw [List.countP_eq_zero]
  intro a ha; simp [h a ha]

private theorem nR_none {q : Nat} {l : List RA} (h : ∀ a ∈ l, a.recvs = none) : nR q l = 0 := by
  unfold nR
  rw [List.countP_eq_zero]
  intro a ha; simp [h a ha]

private theorem countP_nodup {L : List Nat} (h : L.Nodup) (q : Nat) : L.countP (fun a => decide (a = q)) = if q ∈ L then 1 else 0 := by
  have : L.countP (fun a => decide (a = q)) = L.count q := by
    unfold List.count
    apply List.countP_congr
    intro a _; simp
  rw [this]
  by_cases hq : q ∈ L
  · rw [if_pos hq, List.count_eq_one_of_mem h hq]
  · rw [if_neg hq, List.count_eq_zero_of_not_mem hq]

private theorem nS_map {L : List Nat} (h : L.Nodup) (q : Nat) (f : Nat → RA) (hf : ∀ i, (f i).dst = some i) :
    nS q (L.map f) = if q ∈ L then 1 else 0 := by
  unfold nS
  rw [List.countP_map, ← countP_nodup h]
  apply List.countP_congr
  intro a _; simp [hf]

private theorem nR_map {L : List Nat} (h : L.Nodup) (q : Nat) (f : Nat → RA) (hf : ∀ i, (f i).recvs = some i) :
    nR q (L.map f) = if q ∈ L then 1 else 0 := by
  unfold nR
  rw [List.countP_map, ← countP_nodup h]
  apply List.countP_congr
  intro a _; simp [hf]

private theorem nR_recvOthers {inp : List Nat} (hnd : inp.Nodup) (me q : Nat) : nR q (recvOthers inp me) = if q ∈ others inp me then 1 else 0 := by
  have hn : (others inp me).Nodup := hnd.filter _
  rw [← countP_nodup hn]
  unfold recvOthers nR
  rw [List.countP_map]
  have : (others inp me) = (others inp me).zipIdx.map (·.1) := by simp
  conv_rhs => rw [this, List.countP_map]
  apply List.countP_congr
  intro a _; simp [RA.recvs]

private theorem noRecv_local (c : RedCtx V) (inp : List Nat) (me : Nat) : ∀ a ∈ reduceLocal c inp me, a.recvs = none ∧ a.dst = none ∧ a.key = 1 := by
  intro a ha
  unfold reduceLocal at ha
  split at ha
  · rw [List.mem_singleton] at ha; subst ha; exact ⟨rfl, rfl, rfl⟩
  · rcases List.mem_append.1 ha with ha | ha
    · split at ha
      · split at ha
        · simp at ha
        · rw [List.mem_singleton] at ha; subst ha; exact ⟨rfl, rfl, rfl⟩
      · rw [List.mem_singleton] at ha; subst ha; exact ⟨rfl, rfl, rfl⟩
    · obtain ⟨y, _, rfl⟩ := List.mem_map.1 ha; exact ⟨rfl, rfl, rfl⟩

private theorem key_const {l : List RA} {k : Nat} (h : ∀ a ∈ l, a.key = k) : l.Pairwise (fun a b => a.key ≤ b.key) := by
  induction l with
  | nil => exact List.Pairwise.nil
  | cons a l ih =>
    refine List.pairwise_cons.2 ⟨?_, ih (fun b hb => h b (List.mem_cons_of_mem _ hb))⟩
    intro b hb
    rw [h a List.mem_cons_self, h b (List.mem_cons_of_mem _ hb)]
    exact Nat.le_refl _

private theorem key_append {a b : List RA} (ha : a.Pairwise (fun a b => a.key ≤ b.key)) (hb : b.Pairwise (fun a b => a.key ≤ b.key))
    (k : Nat) (h1 : ∀ x ∈ a, x.key ≤ k) (h2 : ∀ x ∈ b, k ≤ x.key) : (a ++ b).Pairwise (fun a b => a.key ≤ b.key) :=
  List.pairwise_append.2 ⟨ha, hb, fun x hx y hy => Nat.le_trans (h1 x hx) (h2 y hy)⟩

/-- Programs using a central process `r` with `mid` doing receives of all inputs
and the local work. -/
private theorem central_sound (inp out : List Nat) (r : Nat) (mid : List RA) (prog : Nat → List RA)
    (hout : out.Nodup) (hr : r ∈ out)
    (hp : ∀ p, p ≠ r → prog p = (if p ∈ inp then [RA.send r] else []) ++ (if p ∈ out then [RA.recvRes r] else []))
    (hpr : prog r = mid ++ (others out r).map RA.sendRes)
    (hm1 : ∀ q, nR q mid = if q ∈ others inp r then 1 else 0) (hm2 : ∀ a ∈ mid, a.dst = none)
    (hm3 : mid.Pairwise (fun a b => a.key ≤ b.key)) (hm4 : ∀ a ∈ mid, a.key ≤ 2) (hm5 : ∀ a ∈ mid, a.recvs ≠ none → a.key = 1) :
    Sound prog := by
  have hno : (others out r).Nodup := hout.filter _
  have hS : ∀ p q, p ≠ r → nS q (prog p) = if p ∈ inp ∧ q = r then 1 else 0 := by
    intro p q h
    rw [hp p h, nS_append]
    by_cases h1 : p ∈ inp <;> by_cases h2 : p ∈ out <;> by_cases h3 : q = r <;>
      simp [h1, h2, h3, nS, RA.dst, eq_comm] <;> (intro hh; exact absurd hh.symm h3)
  have hR : ∀ p q, p ≠ r → nR q (prog p) = if p ∈ out ∧ q = r then 1 else 0 := by
    intro p q h
    rw [hp p h, nR_append]
    by_cases h1 : p ∈ inp <;> by_cases h2 : p ∈ out <;> by_cases h3 : q = r <;>
      simp [h1, h2, h3, nR, RA.recvs, eq_comm] <;> (intro hh; exact absurd hh.symm h3)
  have hSr : ∀ q, nS q (prog r) = if q ∈ others out r then 1 else 0 := by
    intro q
    rw [hpr, nS_append, nS_none hm2, nS_map hno q RA.sendRes (fun _ => rfl), Nat.zero_add]
  have hRr : ∀ q, nR q (prog r) = if q ∈ others inp r then 1 else 0 := by
    intro q
    rw [hpr, nR_append, hm1, nR_none (l := (others out r).map RA.sendRes) ?_, Nat.add_zero]
    intro a ha
    obtain ⟨y, _, rfl⟩ := List.mem_map.1 ha; rfl
  refine ⟨?_, ?_, ?_, ?_⟩
  · intro p q
    by_cases h1 : p = r
    · subst h1
      by_cases h2 : q = p
      · subst h2; rw [hSr, hRr]; simp [mem_others]
      · rw [hSr, hR q p h2]; simp [mem_others, h2]
    · by_cases h2 : q = r
      · subst h2; rw [hS p q h1, hRr]; simp [mem_others, h1]
      · rw [hS p q h1, hR q p h2]; simp [h1, h2]
  · intro p q
    by_cases h2 : q = r
    · subst h2; rw [hRr]; split <;> omega
    · rw [hR q p h2]; split <;> omega
  · intro p
    by_cases h1 : p = r
    · subst h1
      rw [hpr]
      refine key_append hm3 (key_const (k := 4) ?_) 2 hm4 ?_
      · intro a ha; obtain ⟨y, _, rfl⟩ := List.mem_map.1 ha; rfl
      · intro a ha; obtain ⟨y, _, rfl⟩ := List.mem_map.1 ha; simp [RA.key]
    · rw [hp p h1]
      by_cases h1 : p ∈ inp <;> by_cases h2 : p ∈ out <;> simp [h1, h2, RA.key]
  · intro p q a ha hd b hb hrv
    by_cases h1 : p = r
    · subst h1
      rw [hpr] at ha
      rcases List.mem_append.1 ha with ha | ha
      · rw [hm2 a ha] at hd; simp at hd
      · obtain ⟨y, hy, rfl⟩ := List.mem_map.1 ha
        simp only [RA.dst, Option.some.injEq] at hd
        subst hd
        have hyr := (mem_others.1 hy).2
        rw [hp y hyr] at hb
        rcases List.mem_append.1 hb with hb | hb
        · split at hb
          · rw [List.mem_singleton] at hb; subst hb; simp [RA.recvs] at hrv
          · simp at hb
        · split at hb
          · rw [List.mem_singleton] at hb; subst hb; simp [RA.key]
          · simp at hb
    · rw [hp p h1] at ha
      rcases List.mem_append.1 ha with ha | ha
      · split at ha
        · rw [List.mem_singleton] at ha; subst ha
          simp only [RA.dst, Option.some.injEq] at hd
          subst hd
          rw [hpr] at hb
          rcases List.mem_append.1 hb with hb | hb
          · rw [hm5 b hb (by rw [hrv]; simp)]; simp [RA.key]
          · obtain ⟨y, _, rfl⟩ := List.mem_map.1 hb; simp [RA.recvs] at hrv
        · simp at ha
      · split at ha
        · rw [List.mem_singleton] at ha; subst ha; simp [RA.dst] at hd
        · simp at ha

/-- Programs with central process `r`: result. -/
private theorem central (c : RedCtx V) (x : Nat → V) (inp out : List Nat) (r : Nat) (mid : List RA) (prog : Nat → List RA) (loc : Nat → LSt V)
    (hin : inp.Nodup) (hout : out.Nodup) (hr : r ∈ out) (hst : StartOK c x inp loc)
    (hp : ∀ p, p ≠ r → prog p = (if p ∈ inp then [RA.send r] else []) ++ (if p ∈ out then [RA.recvRes r] else []))
    (hpr : prog r = mid ++ (others out r).map RA.sendRes)
    (hm1 : ∀ q, nR q mid = if q ∈ others inp r then 1 else 0) (hm2 : ∀ a ∈ mid, a.dst = none)
    (hm3 : mid.Pairwise (fun a b => a.key ≤ b.key)) (hm4 : ∀ a ∈ mid, a.key ≤ 2) (hm5 : ∀ a ∈ mid, a.recvs ≠ none → a.key = 1)
    (hrun : ∀ v : Nat → Nat → V, (∀ q ∈ others inp r, v q r = x q) → (runO c v r mid (loc r)).res = redSeq c x (redOrder inp r)) :
    Reduces c x inp out prog loc ∧ SameResult c out prog loc := by
  let v : Nat → Nat → V := fun p _ => if p = r then redSeq c x (redOrder inp r) else x p
  have hv : ∀ q ∈ others inp r, v q r = x q := by
    intro q hq; exact if_neg (mem_others.1 hq).2
  have hmid := hrun v hv
  have hok : ∀ p, okO c v p (prog p) (loc p) := by
    intro p
    by_cases h : p = r
    · subst h
      rw [hpr, okO_append]
      refine ⟨okO_noSend c v p mid hm2 _, (run_sendRes c v p _ _).2 ?_⟩
      intro q _
      rw [hmid]; exact (if_pos rfl).symm
    · rw [hp p h, okO_append]
      constructor
      · split
        · rename_i hi
          refine ⟨?_, trivial⟩
          intro q y hy
          simp only [RA.sends, Option.some.injEq, Prod.mk.injEq] at hy
          rw [← hy.2, hst.1 p hi]
          exact (if_neg h).symm
        · trivial
      · split
        · exact okO_noSend c v p _ (by simp [RA.dst]) _
        · trivial
  have hfin : ∀ s, NSteps c (NSt.start prog loc) s → s.done → ∀ p, s.loc p = runO c v p (prog p) (loc p) := by
    intro s hs hd p
    have := ((oracle c v prog loc hok s hs).1 p).2
    rw [hd p] at this
    exact this
  have hres : ∀ s, NSteps c (NSt.start prog loc) s → s.done → ∀ q ∈ out, (s.loc q).res = redSeq c x (redOrder inp r) := by
    intro s hs hd q hq
    rw [hfin s hs hd q]
    by_cases h : q = r
    · subst h
      rw [hpr, runO_append, (run_sendRes c v q _ _).1]
      exact hmid
    · rw [hp q h, runO_append, if_pos hq]
      simp only [runO, RA.eff, LSt.setTo, RA.rv, RA.recvs]
      exact if_pos rfl
  refine ⟨⟨?_, ?_, ?_⟩, ?_⟩
  · intro s hs hd
    exact net_progress c prog (central_sound inp out r mid prog hout hr hp hpr hm1 hm2 hm3 hm4 hm5) loc s hs hd
  · intro s hs hd q hq
    exact ⟨_, redOrder_perm hin, hres s hs hd q hq⟩
  · intro s hs hd q hq
    have h : q ≠ r := by rintro rfl; exact hq hr
    rw [hfin s hs hd q, hp q h, if_neg hq, List.append_nil]
    split <;> rfl
  · intro s hs hd q hq q' hq'
    rw [hres s hs hd q hq, hres s hs hd q' hq']

/-! ### Three rounds -/

private theorem mid3 (c : RedCtx V) (inp : List Nat) (hin : inp.Nodup) (r : Nat) :
    (∀ q, nR q (recvOthers inp r ++ reduceLocal c inp r) = if q ∈ others inp r then 1 else 0) ∧
    (recvOthers inp r ++ reduceLocal c inp r).Pairwise (fun a b => a.key ≤ b.key) ∧
    (∀ a ∈ recvOthers inp r ++ reduceLocal c inp r, a.key ≤ 2) ∧
    (∀ a ∈ recvOthers inp r ++ reduceLocal c inp r, a.recvs ≠ none → a.key = 1) := by
  have hk1 : ∀ a ∈ recvOthers inp r, a.key = 1 := by
    intro a ha; obtain ⟨y, _, rfl⟩ := List.mem_map.1 ha; rfl
  refine ⟨?_, ?_, ?_, ?_⟩
  · intro q
    rw [nR_append, nR_recvOthers hin, nR_none (l := reduceLocal c inp r) (fun a ha => (noRecv_local c inp r a ha).1), Nat.add_zero]
  · refine key_append (key_const hk1) (key_const (k := 1) (fun a ha => (noRecv_local c inp r a ha).2.2)) 1 ?_ ?_
    · intro a ha; rw [hk1 a ha]; exact Nat.le_refl _
    · intro a ha; rw [(noRecv_local c inp r a ha).2.2]; omega
  · intro a ha
    rcases List.mem_append.1 ha with ha | ha
    · rw [hk1 a ha]; omega
    · rw [(noRecv_local c inp r a ha).2.2]; omega
  · intro a ha hn
    rcases List.mem_append.1 ha with ha | ha
    · exact hk1 a ha
    · exact absurd (noRecv_local c inp r a ha).1 hn

/-- **C24**, for `laik_aseq_addReduce3Rounds`: all processes of the output group
get the same reduction of all inputs. -/
theorem C24_reduce3 (c : RedCtx V) (x : Nat → V) (inp out : List Nat) (loc : Nat → LSt V) (prog : Nat → List RA)
    (hin : inp.Nodup) (hout : out.Nodup) (hst : StartOK c x inp loc) (h : ∀ p, reduce3 c inp out p = some (prog p)) :
    Reduces c x inp out prog loc ∧ SameResult c out prog loc := by
  cases out with
  | nil => have := h 0; simp [reduce3] at this
  | cons r o =>
    have h1 := h r
    simp only [reduce3, ne_eq, not_true_eq_false, if_false] at h1
    split at h1
    · injection h1 with h1
      obtain ⟨m1, m2, m3, m4⟩ := mid3 c inp hin r
      refine central c x inp (r :: o) r _ prog loc hin hout List.mem_cons_self hst ?_ h1.symm m1 (noSend_local c inp r) m2 m3 m4 ?_
      · intro p hp
        have h2 := h p
        simp only [reduce3, ne_eq, hp, not_false_eq_true, if_true] at h2
        injection h2 with h2
        exact h2.symm
      · intro v hv
        exact run_recv_local c v x inp r hin (loc r) (hst.1 r) (hst.2 r) hv
    · simp at h1

/-! ### Two rounds -/

/-- **C24**, for `laik_aseq_addReduce2Rounds`. -/
theorem C24_reduce2 (c : RedCtx V) (x : Nat → V) (inp out : List Nat) (loc : Nat → LSt V) (prog : Nat → List RA)
    (hin : inp.Nodup) (hout : out.Nodup) (hst : StartOK c x inp loc) (h : ∀ p, reduce2 c inp out p = some (prog p)) :
    Reduces c x inp out prog loc := by
  have hprog : ∀ p, prog p = (if p ∈ inp then (others out p).map RA.send else []) ++
      (if p ∈ out then recvOthers inp p ++ reduceLocal c inp p else []) := by
    intro p
    have h1 := h p
    simp only [reduce2] at h1
    by_cases hp : p ∈ out
    · rw [if_pos hp] at h1 ⊢
      split at h1
      · injection h1 with h1
        rw [← h1, List.append_assoc]
      · simp at h1
    · rw [if_neg hp] at h1 ⊢
      injection h1 with h1
      rw [← h1, List.append_nil]
  let v : Nat → Nat → V := fun p _ => x p
  have hnds : ∀ p, (others out p).Nodup := fun p => hout.filter _
  have hrs : ∀ p s, runO c v p (if p ∈ inp then (others out p).map RA.send else []) s = s := by
    intro p s; split
    · exact (run_send c v p _ s).1
    · rfl
  have hok : ∀ p, okO c v p (prog p) (loc p) := by
    intro p
    rw [hprog, okO_append]
    constructor
    · split
      · rename_i hi
        exact (run_send c v p _ _).2 (fun q _ => hst.1 p hi)
      · trivial
    · split
      · exact okO_noSend c v p _ (noSend_local c inp p) _
      · trivial
  have hfin : ∀ s, NSteps c (NSt.start prog loc) s → s.done → ∀ p, s.loc p = runO c v p (prog p) (loc p) := by
    intro s hs hd p
    have := ((oracle c v prog loc hok s hs).1 p).2
    rw [hd p] at this
    exact this
  have hsend : ∀ p, ∀ a ∈ (if p ∈ inp then (others out p).map RA.send else []), a.key = 0 ∧ a.recvs = none := by
    intro p a ha
    split at ha
    · obtain ⟨y, _, rfl⟩ := List.mem_map.1 ha; exact ⟨rfl, rfl⟩
    · simp at ha
  have hS : ∀ p q, nS q (prog p) = if p ∈ inp ∧ q ∈ out ∧ q ≠ p then 1 else 0 := by
    intro p q
    rw [hprog, nS_append]
    have : nS q (if p ∈ out then recvOthers inp p ++ reduceLocal c inp p else []) = 0 := by
      split
      · exact nS_none (noSend_local c inp p)
      · rfl
    rw [this, Nat.add_zero]
    by_cases hp : p ∈ inp
    · rw [if_pos hp, nS_map (hnds p) q RA.send (fun _ => rfl)]
      simp [mem_others, hp]
    · simp [hp, nS]
  have hR : ∀ p q, nR q (prog p) = if p ∈ out ∧ q ∈ inp ∧ q ≠ p then 1 else 0 := by
    intro p q
    rw [hprog, nR_append, nR_none (fun a ha => (hsend p a ha).2), Nat.zero_add]
    by_cases hp : p ∈ out
    · rw [if_pos hp, (mid3 c inp hin p).1 q]
      simp [mem_others, hp]
    · simp [hp, nR]
  have hsound : Sound prog := by
    refine ⟨?_, ?_, ?_, ?_⟩
    · intro p q
      rw [hS, hR]
      have : (p ∈ inp ∧ q ∈ out ∧ q ≠ p) ↔ (q ∈ out ∧ p ∈ inp ∧ p ≠ q) := by
        constructor <;> rintro ⟨a, b, d⟩ <;> exact ⟨b, a, d.symm⟩
      simp only [this]
    · intro p q; rw [hR]; split <;> omega
    · intro p
      rw [hprog]
      refine key_append (key_const (k := 0) (fun a ha => (hsend p a ha).1)) ?_ 0 (fun a ha => by rw [(hsend p a ha).1]; exact Nat.le_refl _) (fun _ _ => Nat.zero_le _)
      split
      · exact (mid3 c inp hin p).2.1
      · exact List.Pairwise.nil
    · intro p q a ha hd b hb hrv
      rw [hprog] at ha hb
      rcases List.mem_append.1 ha with ha | ha
      · rw [(hsend p a ha).1]
        rcases List.mem_append.1 hb with hb | hb
        · rw [(hsend q b hb).2] at hrv; simp at hrv
        · split at hb
          · rw [(mid3 c inp hin q).2.2.2 b hb (by rw [hrv]; simp)]; omega
          · simp at hb
      · split at ha
        · rw [noSend_local c inp p a ha] at hd; simp at hd
        · simp at ha
  refine ⟨fun s hs hd => net_progress c prog hsound loc s hs hd, ?_, ?_⟩
  · intro s hs hd q hq
    refine ⟨redOrder inp q, redOrder_perm hin, ?_⟩
    rw [hfin s hs hd q, hprog, runO_append, hrs, if_pos hq]
    exact run_recv_local c v x inp q hin (loc q) (hst.1 q) (hst.2 q) (fun _ _ => rfl)
  · intro s hs hd q hq
    rw [hfin s hs hd q, hprog, runO_append, hrs, if_neg hq]
    rfl

/-! ### Selection of the method -/

/-- **C24**, for `laik_aseq_splitReduce`: if no process aborts, all processes of
the output group get a reduction of all inputs, and for associative and
commutative operations all get the same value.  Missing: it aborts for more than
32 inputs (see `C24_limit`). -/
theorem C24_splitReduce_partial (c : RedCtx V) (x : Nat → V) (inp out : List Nat) (loc : Nat → LSt V) (prog : Nat → List RA)
    (hin : inp.Nodup) (hout : out.Nodup) (hst : StartOK c x inp loc) (h : ∀ p, splitReduce c inp out p = some (prog p)) :
    Reduces c x inp out prog loc ∧
    ((∀ a b d, c.op (c.op a b) d = c.op a (c.op b d)) → (∀ a b, c.op a b = c.op b a) → SameResult c out prog loc) := by
  have hr : Reduces c x inp out prog loc := by
    simp only [splitReduce] at h
    split at h
    · exact (C24_reduce3 c x inp out loc prog hin hout hst h).1
    · exact C24_reduce2 c x inp out loc prog hin hout hst h
  refine ⟨hr, fun ha hc s hs hd q hq r hrr => ?_⟩
  exact C24_reduction_unique c x inp ha hc _ _ (hr.result s hs hd q hq) (hr.result s hs hd r hrr)

/-- No abort with at most 32 inputs. -/
theorem C24_no_abort (c : RedCtx V) (inp out : List Nat) (hout : out ≠ []) (hin : inp.length ≤ 32) (p : Nat) :
    (splitReduce c inp out p).isSome ∧ (mpiGroupReduce inp out p).isSome ∧ (tcp2Reduce c inp out p).isSome := by
  cases out with
  | nil => exact absurd rfl hout
  | cons r o =>
    refine ⟨?_, ?_, ?_⟩
    · simp only [splitReduce, reduce3, reduce2]
      by_cases h1 : p = r <;> by_cases h2 : p ∈ r :: o <;> simp only [h1, h2, hin, ne_eq, not_true_eq_false, not_false_eq_true, if_true, if_false] <;>
        split <;> first | rfl | (split <;> rfl)
    · simp only [mpiGroupReduce]
      by_cases h1 : p = r <;> simp [h1, hin]
    · simp only [tcp2Reduce]
      by_cases h1 : p = r <;> simp [h1]

/-- With more than 32 inputs, processes doing the reduction abort. -/
theorem C24_limit (c : RedCtx V) (inp out : List Nat) (r : Nat) (o : List Nat) (hout : out = r :: o) (hin : 32 < inp.length) :
    splitReduce c inp out r = none ∧ mpiGroupReduce inp out r = none := by
  subst hout
  constructor
  · simp only [splitReduce, reduce3, reduce2]
    rw [if_neg (show ¬ inp.length ≤ 32 by omega)]
    split <;> simp [hin]
  · simp only [mpiGroupReduce]
    rw [if_neg (by simp), if_neg (by omega)]

/-! ### Direct execution with MPI -/

private def mpiMid (inp : List Nat) (me : Nat) : List RA :=
  if inp.length < 1 then [.init]
  else if inp.length < 2 then [if me ∈ inp then .copyIn else .copySlot ((bufOffs inp me).getD 0 0)]
  else (if me ∈ inp then .redInSlot ((bufOffs inp me).getD 1 0) else .redSlots ((bufOffs inp me).getD 0 0) ((bufOffs inp me).getD 1 0)) ::
    (List.range (inp.length - 2)).map (fun t => .redSlot ((bufOffs inp me).getD (t + 2) 0))

private theorem mpiMid_local (inp : List Nat) (me : Nat) : ∀ a ∈ mpiMid inp me, a.recvs = none ∧ a.dst = none ∧ a.key = 1 := by
  intro a ha
  unfold mpiMid at ha
  split at ha
  · rw [List.mem_singleton] at ha; subst ha; exact ⟨rfl, rfl, rfl⟩
  · split at ha
    · rw [List.mem_singleton] at ha; subst ha; split <;> exact ⟨rfl, rfl, rfl⟩
    · rcases List.mem_cons.1 ha with rfl | ha
      · split <;> exact ⟨rfl, rfl, rfl⟩
      · obtain ⟨y, _, rfl⟩ := List.mem_map.1 ha; exact ⟨rfl, rfl, rfl⟩

private theorem run_mpiMid (c : RedCtx V) (v : Nat → Nat → V) (x : Nat → V) (inp : List Nat) (me : Nat) (hnd : inp.Nodup) (s : LSt V)
    (hf : me ∈ inp → s.frm = x me)
    (hs : ∀ j (hj : j < (others inp me).length), s.slot j = x (others inp me)[j]) :
    (runO c v me (mpiMid inp me) s).res = redSeq c x (redOrder inp me) := by
  unfold mpiMid redOrder bufOffs
  by_cases h0 : inp.length < 1
  · have : inp = [] := List.eq_nil_of_length_eq_zero (by omega)
    subst this
    simp [others, redSeq, runO, RA.eff, LSt.setTo]
  · rw [if_neg h0]
    by_cases hm : me ∈ inp
    · rw [if_pos hm, if_pos hm, if_pos hm, if_pos hm]
      have hlen := length_others hnd hm
      generalize ho : others inp me = O at hlen hs ⊢
      cases O with
      | nil =>
        rw [if_pos (by simp at hlen; omega)]
        simp [runO, RA.eff, LSt.setTo, redSeq, hf hm]
      | cons q L =>
        simp only [List.length_cons] at hlen
        rw [if_neg (by omega)]
        have hmap : (List.range (inp.length - 2)).map (fun t => RA.redSlot (([0] ++ List.range (q :: L).length).getD (t + 2) 0)) =
            (((List.range L.length).map (· + 1)).map RA.redSlot) := by
          rw [List.map_map, show inp.length - 2 = L.length by omega]
          apply List.map_congr_left
          intro t ht
          rw [List.mem_range] at ht
          simp [List.getD_eq_getElem?_getD, ht]
        have h1 : ([0] ++ List.range (q :: L).length).getD 1 0 = 0 := by
          simp [List.getD_eq_getElem?_getD]
        rw [hmap, h1]
        simp only [runO]
        rw [run_red]
        have e1 : ((RA.redInSlot 0).eff c me ((RA.redInSlot 0).rv v me s) s).res = c.op (x me) (x q) := by
          simp only [RA.eff, LSt.setTo, hf hm]
          rw [hs 0 (by simp)]; rfl
        have e2 : ((RA.redInSlot 0).eff c me ((RA.redInSlot 0).rv v me s) s).slot = s.slot := rfl
        rw [e1, e2, fold_slots c x s.slot L (· + 1) (fun j hj => hs (j + 1) (by simpa using hj))]
        rfl
    · rw [if_neg hm, if_neg hm, if_neg hm, if_neg hm]
      have ho := others_self hm
      rw [ho] at hs ⊢
      cases inp with
      | nil => simp at h0
      | cons q L =>
        cases L with
        | nil =>
          rw [if_pos (by simp)]
          have h00 : (([] ++ List.range [q].length : List Nat)).getD 0 0 = 0 := by
            simp [List.getD_eq_getElem?_getD]
          rw [h00]
          simp only [runO, RA.eff, LSt.setTo]
          exact hs 0 (by simp)
        | cons q2 L =>
          rw [if_neg (by simp)]
          have hmap : (List.range ((q :: q2 :: L).length - 2)).map (fun t => RA.redSlot (([] ++ List.range (q :: q2 :: L).length).getD (t + 2) 0)) =
              (((List.range L.length).map (· + 2)).map RA.redSlot) := by
            rw [List.map_map]
            apply List.map_congr_left
            intro t ht
            simp only [List.length_cons, List.mem_range] at ht
            have : t < L.length := by omega
            simp [List.getD_eq_getElem?_getD, this]
          have h00 : (([] ++ List.range (q :: q2 :: L).length : List Nat)).getD 0 0 = 0 := by
            simp [List.getD_eq_getElem?_getD]
          have h01 : (([] ++ List.range (q :: q2 :: L).length : List Nat)).getD 1 0 = 1 := by
            simp [List.getD_eq_getElem?_getD]
          rw [hmap, h00, h01]
          simp only [runO]
          rw [run_red]
          have e1 : ((RA.redSlots 0 1).eff c me ((RA.redSlots 0 1).rv v me s) s).res = c.op (x q) (x q2) := by
            simp only [RA.eff, LSt.setTo]
            rw [hs 0 (by simp), hs 1 (by simp)]; rfl
          have e2 : ((RA.redSlots 0 1).eff c me ((RA.redSlots 0 1).rv v me s) s).slot = s.slot := rfl
          rw [e1, e2, fold_slots c x s.slot L (· + 2) (fun j hj => hs (j + 2) (by simpa using hj))]
          rfl

/-- **C24**, for `laik_mpi_exec_groupReduce`. -/
theorem C24_mpi (c : RedCtx V) (x : Nat → V) (inp out : List Nat) (loc : Nat → LSt V) (prog : Nat → List RA)
    (hin : inp.Nodup) (hout : out.Nodup) (hst : StartOK c x inp loc) (h : ∀ p, mpiGroupReduce inp out p = some (prog p)) :
    Reduces c x inp out prog loc ∧ SameResult c out prog loc := by
  cases out with
  | nil => have := h 0; simp [mpiGroupReduce] at this
  | cons r o =>
    have h1 := h r
    simp only [mpiGroupReduce, ne_eq, not_true_eq_false, if_false] at h1
    split at h1
    · injection h1 with h1
      have hk1 : ∀ a ∈ recvOthers inp r, a.key = 1 ∧ a.dst = none := by
        intro a ha; obtain ⟨y, _, rfl⟩ := List.mem_map.1 ha; exact ⟨rfl, rfl⟩
      refine central c x inp (r :: o) r (recvOthers inp r ++ mpiMid inp r) prog loc hin hout List.mem_cons_self hst ?_ ?_ ?_ ?_ ?_ ?_ ?_ ?_
      · intro p hp
        have h2 := h p
        simp only [mpiGroupReduce, ne_eq, hp, not_false_eq_true, if_true] at h2
        injection h2 with h2
        exact h2.symm
      · exact h1.symm
      · intro q
        rw [nR_append, nR_recvOthers hin, nR_none (l := mpiMid inp r) (fun a ha => (mpiMid_local inp r a ha).1), Nat.add_zero]
      · intro a ha
        rcases List.mem_append.1 ha with ha | ha
        · exact (hk1 a ha).2
        · exact (mpiMid_local inp r a ha).2.1
      · refine key_append (key_const (fun a ha => (hk1 a ha).1)) (key_const (k := 1) (fun a ha => (mpiMid_local inp r a ha).2.2)) 1 ?_ ?_
        · intro a ha; rw [(hk1 a ha).1]; exact Nat.le_refl _
        · intro a ha; rw [(mpiMid_local inp r a ha).2.2]; omega
      · intro a ha
        rcases List.mem_append.1 ha with ha | ha
        · rw [(hk1 a ha).1]; omega
        · rw [(mpiMid_local inp r a ha).2.2]; omega
      · intro a ha hn
        rcases List.mem_append.1 ha with ha | ha
        · exact (hk1 a ha).1
        · exact absurd (mpiMid_local inp r a ha).1 hn
      · intro v hv
        rw [runO_append]
        unfold recvOthers
        obtain ⟨h1, _, _, h4⟩ := run_recv c v r (others inp r) 0 (loc r)
        apply run_mpiMid c v x inp r hin
        · intro hm; rw [h1]; exact hst.1 r hm
        · intro j hj
          have := h4 j hj
          rw [Nat.zero_add] at this
          rw [this]
          exact hv _ (List.getElem_mem hj)
    · simp at h1

/-! ### TCP2 backend -/

private def tcpMid (c : RedCtx V) (inp : List Nat) (me : Nat) : List RA :=
  if me ∈ inp then (if c.inPlace me then [] else [.copyIn]) ++ (others inp me).map .recvAcc
  else match others inp me with
    | [] => []
    | q :: l => .recvIn q :: l.map .recvAcc

/-- **C24**, for `exec_reduce` of the TCP2 backend, which supports any number of
inputs.  Missing: it does not set the neutral element if there are no inputs
(see `C24_tcp2_no_input`). -/
theorem C24_tcp2_partial (c : RedCtx V) (x : Nat → V) (inp out : List Nat) (loc : Nat → LSt V) (prog : Nat → List RA)
    (hne : inp ≠ []) (hin : inp.Nodup) (hout : out.Nodup) (hst : StartOK c x inp loc) (h : ∀ p, tcp2Reduce c inp out p = some (prog p)) :
    Reduces c x inp out prog loc ∧ SameResult c out prog loc := by
  cases out with
  | nil => have := h 0; simp [tcp2Reduce] at this
  | cons r o =>
    have h1 := h r
    simp only [tcp2Reduce, ne_eq, not_true_eq_false, if_false] at h1
    injection h1 with h1
    have hno : (others inp r).Nodup := hin.filter _
    have hacc : ∀ L : List Nat, ∀ a ∈ L.map RA.recvAcc, a.key = 1 ∧ a.dst = none := by
      intro L a ha; obtain ⟨y, _, rfl⟩ := List.mem_map.1 ha; exact ⟨rfl, rfl⟩
    have htk : ∀ a ∈ tcpMid c inp r, a.key = 1 := by
      intro a ha
      unfold tcpMid at ha
      split at ha
      · rcases List.mem_append.1 ha with ha | ha
        · split at ha
          · simp at ha
          · rw [List.mem_singleton] at ha; subst ha; rfl
        · exact (hacc _ a ha).1
      · split at ha
        · simp at ha
        · rcases List.mem_cons.1 ha with rfl | ha
          · rfl
          · exact (hacc _ a ha).1
    refine central c x inp (r :: o) r (tcpMid c inp r) prog loc hin hout List.mem_cons_self hst ?_ ?_ ?_ ?_ ?_ ?_ ?_ ?_
    · intro p hp
      have h2 := h p
      simp only [tcp2Reduce, ne_eq, hp, not_false_eq_true, if_true] at h2
      injection h2 with h2
      exact h2.symm
    · exact h1.symm
    · intro q
      unfold tcpMid
      split
      · rw [nR_append, nR_map hno q RA.recvAcc (fun _ => rfl), nR_none, Nat.zero_add]
        intro a ha
        split at ha
        · simp at ha
        · rw [List.mem_singleton] at ha; subst ha; rfl
      · generalize others inp r = O at hno
        cases O with
        | nil => simp [nR]
        | cons q0 L =>
          rw [List.nodup_cons] at hno
          simp only
          have e : nR q (RA.recvIn q0 :: L.map RA.recvAcc) = (if q0 = q then 1 else 0) + nR q (L.map RA.recvAcc) := by
            unfold nR
            rw [List.countP_cons, Nat.add_comm]
            congr 1
            simp [RA.recvs]
          rw [e, nR_map hno.2 q RA.recvAcc (fun _ => rfl)]
          by_cases e1 : q0 = q
          · subst e1; simp [hno.1]
          · simp [e1, Ne.symm e1]
    · intro a ha
      unfold tcpMid at ha
      split at ha
      · rcases List.mem_append.1 ha with ha | ha
        · split at ha
          · simp at ha
          · rw [List.mem_singleton] at ha; subst ha; rfl
        · exact (hacc _ a ha).2
      · split at ha
        · simp at ha
        · rcases List.mem_cons.1 ha with rfl | ha
          · rfl
          · exact (hacc _ a ha).2
    · exact key_const htk
    · intro a ha
      rw [htk a ha]; omega
    · intro a ha _
      exact htk a ha
    · intro v hv
      have hfold : ∀ (L : List Nat) (a : V), (∀ q ∈ L, v q r = x q) →
          L.foldl (fun a q => c.op a (v q r)) a = L.foldl (fun a q => c.op a (x q)) a := by
        intro L
        induction L with
        | nil => intro a _; rfl
        | cons q L ih =>
          intro a hq
          simp only [List.foldl_cons]
          rw [hq q List.mem_cons_self]
          exact ih _ (fun q' hq' => hq q' (List.mem_cons_of_mem _ hq'))
      unfold tcpMid redOrder
      by_cases hm : r ∈ inp
      · rw [if_pos hm, if_pos hm, runO_append, run_acc, hfold _ _ hv]
        have : (runO c v r (if c.inPlace r = true then [] else [RA.copyIn]) (loc r)).res = x r := by
          split
          · rename_i hi
            simp only [runO]
            rw [← hst.2 r hi]; exact hst.1 r hm
          · simp only [runO, RA.eff, LSt.setTo]; exact hst.1 r hm
        rw [this]; rfl
      · rw [if_neg hm, if_neg hm]
        have ho := others_self hm
        rw [ho] at hv ⊢
        cases inp with
        | nil => exact absurd rfl hne
        | cons q0 L =>
          simp only [runO]
          rw [run_acc, hfold _ _ (fun q hq => hv q (List.mem_cons_of_mem _ hq))]
          have : ((RA.recvIn q0).eff c r ((RA.recvIn q0).rv v r (loc r)) (loc r)).res = x q0 := hv q0 List.mem_cons_self
          rw [this]; rfl

/-- With no inputs, the TCP2 backend leaves the memory of the reducing process
unchanged instead of setting it to the neutral element, and sends it to the
other processes. -/
theorem C24_tcp2_no_input (c : RedCtx V) (r q : Nat) (loc : Nat → LSt V) (hne : r ≠ q) (hv : (loc r).res ≠ c.neutral) :
    ∃ prog, (∀ p, tcp2Reduce c [] [r, q] p = some (prog p)) ∧
      ∃ s, NSteps c (NSt.start prog loc) s ∧ s.done ∧ ¬ IsReduction c (fun _ => c.neutral) [] (s.loc q).res := by
  refine ⟨fun p => if p ≠ r then (if p = q then [.recvRes r] else []) else [.sendRes q], ?_, ?_⟩
  · intro p
    by_cases h1 : p = r
    · subst h1
      simp [tcp2Reduce, others, hne.symm]
    · by_cases h2 : p = q
      · subst h2; simp [tcp2Reduce, h1]
      · simp [tcp2Reduce, h1, h2]
  · refine ⟨_, .step (.step (.refl _) (.send _ r (.sendRes q) [] q (loc r).res ?_ rfl))
      (.recv _ q (.recvRes r) [] r (loc r).res [] ?_ rfl ?_), ?_, ?_⟩
    · simp [NSt.start]
    · simp [NSt.set, NSt.start, hne.symm]
    · simp [NSt.set, NSt.start, setCh]
    · intro p
      by_cases h1 : p = q <;> by_cases h2 : p = r <;> simp [NSt.set, NSt.start, h1, h2]
    · rintro ⟨l, hl, he⟩
      rw [List.perm_nil.1 hl] at he
      simp [NSt.set, RA.eff, LSt.setTo, redSeq] at he
      exact hv he

/-- If processes starting at `n` are not involved, executions of a manual
reduction can always be finished. -/
theorem C24_terminates (c : RedCtx V) (x : Nat → V) (inp out : List Nat) (prog : Nat → List RA) (loc : Nat → LSt V)
    (h : Reduces c x inp out prog loc) (n : Nat) (hn : ∀ p, n ≤ p → prog p = []) (s : NSt V) (hs : NSteps c (NSt.start prog loc) s) :
    ∃ s', NSteps c s s' ∧ s'.done := by
  have hrem : ∀ p, n ≤ p → s.rem p = [] := by
    clear h
    induction hs with
    | refl => exact hn
    | step h1 h2 ih => exact (step_len c _ _ h2 n ih).2
  exact net_terminates c s n hrem (fun s' hs' hd => h.progress s' (hs.trans hs') hd)

/-- Two processes with inputs 0 and 1, all in input and output group. -/
def redDemo : RedCtx Int := ⟨fun a b => a - b, 0, fun _ => false⟩

def redDemoProg (p : Nat) : List RA :=
  if p = 0 then [.send 1, .recvSlot 0 1, .copyIn, .redSlot 0]
  else if p = 1 then [.send 0, .recvSlot 0 0, .copyIn, .redSlot 0] else []

def redDemoLoc (p : Nat) : LSt Int := ⟨p, 7, fun _ => 9⟩

theorem redDemo_prog (p : Nat) : splitReduce redDemo [0, 1] [0, 1] p = some (redDemoProg p) := by
  match p with
  | 0 => rfl
  | 1 => rfl
  | n + 2 => simp [splitReduce, reduce2, redDemoProg]

theorem redDemo_start : StartOK redDemo (fun p => (p : Int)) [0, 1] redDemoLoc :=
  ⟨fun _ _ => rfl, fun _ h => by simp [redDemo] at h⟩

/-- Hypotheses of the theorems hold for the example, and all executions of it
can be finished. -/
example : ∃ s, NSteps redDemo (NSt.start redDemoProg redDemoLoc) s ∧ s.done := by
  have h := (C24_splitReduce_partial redDemo (fun p => (p : Int)) [0, 1] [0, 1] redDemoLoc redDemoProg (by decide) (by decide)
    redDemo_start redDemo_prog).1
  refine C24_terminates _ _ _ _ _ _ h 2 ?_ _ (.refl _)
  intro p hp
  simp only [redDemoProg]
  rw [if_neg (by omega), if_neg (by omega)]

/-- With the 2-round method, results of processes can differ for operations which
are not associative and commutative: each process starts with its own input. -/
theorem C24_reduce2_differs : ∃ prog, (∀ p, splitReduce redDemo [0, 1] [0, 1] p = some (prog p)) ∧
    ∃ s, NSteps redDemo (NSt.start prog redDemoLoc) s ∧ s.done ∧ (s.loc 0).res = -1 ∧ (s.loc 1).res = 1 := by
  refine ⟨redDemoProg, redDemo_prog, ?_⟩
  have h := (C24_splitReduce_partial redDemo (fun p => (p : Int)) [0, 1] [0, 1] redDemoLoc redDemoProg (by decide) (by decide)
    redDemo_start redDemo_prog).1
  obtain ⟨s, hs, hd⟩ := C24_terminates _ _ _ _ _ _ h 2
    (fun p hp => by simp only [redDemoProg]; rw [if_neg (by omega), if_neg (by omega)]) _ (.refl _)
  refine ⟨s, hs, hd, ?_⟩
  have ho := oracle redDemo (fun p _ => (p : Int)) redDemoProg redDemoLoc ?_ s hs
  · have h0 := (ho.1 0).2
    have h1 := (ho.1 1).2
    rw [hd 0] at h0
    rw [hd 1] at h1
    simp only [runO] at h0 h1
    rw [h0, h1]
    exact ⟨by decide, by decide⟩
  · intro p
    match p with
    | 0 =>
      refine ⟨?_, okO_noSend _ _ _ _ (by simp [RA.dst]) _⟩
      intro q y hy; simp [RA.sends, redDemoLoc] at hy; exact hy.2.symm
    | 1 =>
      refine ⟨?_, okO_noSend _ _ _ _ (by simp [RA.dst]) _⟩
      intro q y hy; simp [RA.sends, redDemoLoc] at hy; exact hy.2.symm
    | n + 2 =>
      have : redDemoProg (n + 2) = [] := by simp [redDemoProg]
      rw [this]; trivial

end Laik
