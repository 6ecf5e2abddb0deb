import Verif.Model.TransitionLemmas
/-!
# C17, C18: transitions in 1d spaces
-/

namespace Laik

/-! ### What an operation list says about messages and reductions -/

/-- Index ranges sent to process `b`, in order. -/
def sendsTo (b : Nat) (ops : List TOp) : List (Int × Int) :=
  ops.filterMap (fun op => match op with
    | .send x y _ t => if t = b then some (x, y) else none
    | _ => none)

/-- Index ranges received from process `a`, in order. -/
def recvsFrom (a : Nat) (ops : List TOp) : List (Int × Int) :=
  ops.filterMap (fun op => match op with
    | .recv x y _ t => if t = a then some (x, y) else none
    | _ => none)

/-- A reduction: range, contributing processes, processes getting the result. -/
structure RedSpec where
  x : Int
  y : Int
  ins : List Nat
  outs : List Nat
  deriving DecidableEq, Repr

/-- Reductions of a transition, in order. -/
def redsOf (n : Nat) (st : TSt) : List RedSpec :=
  st.ops.filterMap (fun op => match op with
    | .red x y i o _ _ => some ⟨x, y, transGroup n st.groups i, transGroup n st.groups o⟩
    | _ => none)

def RedSpec.involves (r : RedSpec) (t : Nat) : Bool := decide (t ∈ r.ins ∨ t ∈ r.outs)

/-! ### Helper lemmas -/

def rSends (b : Nat) : ROp → Option (Int × Int)
  | .send x y _ t => if t = b then some (x, y) else none
  | _ => none

def rRecvs (a : Nat) : ROp → Option (Int × Int)
  | .recv x y _ t => if t = a then some (x, y) else none
  | _ => none

def rReds : ROp → Option RedSpec
  | .red x y i o _ _ => some ⟨x, y, i, o⟩
  | _ => none

theorem sendsTo_res (n myid b : Nat) (st : TSt) : sendsTo b st.ops = (st.res n myid).filterMap (rSends b) := by
  unfold sendsTo TSt.res
  rw [List.filterMap_map]
  apply List.filterMap_congr
  intro op _
  cases op <;> rfl

theorem recvsFrom_res (n myid a : Nat) (st : TSt) : recvsFrom a st.ops = (st.res n myid).filterMap (rRecvs a) := by
  unfold recvsFrom TSt.res
  rw [List.filterMap_map]
  apply List.filterMap_congr
  intro op _
  cases op <;> rfl

theorem redsOf_res (n myid : Nat) (st : TSt) : redsOf n st = (st.res n myid).filterMap rReds := by
  unfold redsOf TSt.res
  rw [List.filterMap_map]
  apply List.filterMap_congr
  intro op _
  cases op <;> rfl

theorem eq_single_of_length {l : List Nat} (h : l.length = 1) : l = [l.headD 0] := by
  match l, h with
  | [a], _ => rfl

section
variable {n redOp : Nat} {F T : List TR} {x y : Int}

theorem filterMap_eq_single {l : List Nat} (hs : l.Pairwise (· < ·)) {β : Type} (b : Nat) (v : β) (f : Nat → Option β)
    (hb : b ∈ l → f b = some v) (hn : ∀ o ∈ l, o ≠ b → f o = none) :
    l.filterMap f = if b ∈ l then [v] else [] := by
  induction l with
  | nil => simp
  | cons a l ih =>
    rw [List.pairwise_cons] at hs
    have ih := ih hs.2 (fun h => hb (List.mem_cons_of_mem _ h)) (fun o ho => hn o (List.mem_cons_of_mem _ ho))
    by_cases e : a = b
    · subst e
      have : a ∉ l := fun h => by have := hs.1 a h; omega
      rw [List.filterMap_cons_some (hb List.mem_cons_self), ih]
      simp [this]
    · rw [List.filterMap_cons_none (hn a List.mem_cons_self e), ih]
      have : (b ∈ a :: l) ↔ b ∈ l := by
        rw [List.mem_cons]
        exact ⟨fun h => h.resolve_left (fun h => e h.symm), Or.inr⟩
      simp only [this]

theorem specSeg_sends {a b : Nat} (hab : a ≠ b) {l : List ROp} (h : specSeg n redOp a F T x y = some l) :
    l.filterMap (rSends b) = if ownersAt F n x = [a] ∧ b ∈ ownersAt T n x then [(x, y)] else [] := by
  unfold specSeg at h
  simp only [] at h
  generalize hi : ownersAt F n x = ins at *
  have so := ownersAt_sorted T n x
  generalize ho : ownersAt T n x = outs at *
  split at h
  · rename_i c
    simp only [Option.some.injEq] at h; subst h
    have : ins ≠ [a] := by rintro rfl; simp at c
    simp [this]
  · split at h
    · rename_i c
      split at h
      · split at h
        · rename_i e
          simp only [Option.some.injEq] at h; subst h
          rw [List.filterMap_map, filterMap_eq_single so b (x, y)]
          · simp [e]
          · intro _
            simp only [Function.comp, if_neg (Ne.symm hab), rSends, if_true]
          · intro o _ hob
            by_cases g : o = a
            · simp [g, rSends]
            · simp [g, rSends, hob]
        · rename_i e
          simp only [Option.some.injEq] at h; subst h
          simp only [e, false_and, if_false]
          split <;> simp [rSends]
      · cases h
    · rename_i c
      split at h
      · cases h
      · simp only [Option.some.injEq] at h; subst h
        have : ins ≠ [a] := by rintro rfl; simp at c
        simp [this, rSends]

theorem specSeg_recvs {a b : Nat} (hab : a ≠ b) {l : List ROp} (h : specSeg n redOp b F T x y = some l) :
    l.filterMap (rRecvs a) = if ownersAt F n x = [a] ∧ b ∈ ownersAt T n x then [(x, y)] else [] := by
  unfold specSeg at h
  simp only [] at h
  generalize hi : ownersAt F n x = ins at *
  generalize ho : ownersAt T n x = outs at *
  split at h
  · rename_i c
    simp only [Option.some.injEq] at h; subst h
    simp [c.2]
  · split at h
    · rename_i c
      split at h
      · split at h
        · rename_i e
          simp only [Option.some.injEq] at h; subst h
          have : ins ≠ [a] := by rw [e]; simp [Ne.symm hab]
          simp only [this, false_and, if_false]
          rw [List.filterMap_eq_nil_iff]
          intro op hop
          obtain ⟨o, _, rfl⟩ := List.mem_map.1 hop
          by_cases g : o = b
          · simp [g, rRecvs]
          · simp [g, rRecvs]
        · rename_i e
          simp only [Option.some.injEq] at h; subst h
          have hc := eq_single_of_length c
          by_cases g : b ∈ outs
          · by_cases k : ins = [a]
            · simp [g, k, rRecvs]
            · have : ins.headD 0 ≠ a := by
                intro z; rw [z] at hc; exact k hc
              simp only [g, if_true, k, false_and, if_false, List.filterMap_cons, rRecvs, if_neg this,
                List.filterMap_nil]
          · simp [g]
      · cases h
    · rename_i c
      split at h
      · cases h
      · simp only [Option.some.injEq] at h; subst h
        have : ins ≠ [a] := by rintro rfl; simp at c
        simp [this, rRecvs]

theorem specSeg_reds {a : Nat} {l : List ROp} (h : specSeg n redOp a F T x y = some l) :
    l.filterMap rReds = if (ownersAt F n x).length ≠ 1 ∧ (a ∈ ownersAt F n x ∨ a ∈ ownersAt T n x)
      then [⟨x, y, ownersAt F n x, ownersAt T n x⟩] else [] := by
  unfold specSeg at h
  simp only [] at h
  generalize hi : ownersAt F n x = ins at *
  generalize ho : ownersAt T n x = outs at *
  split at h
  · rename_i c
    simp only [Option.some.injEq] at h; subst h
    simp [c.1, c.2]
  · rename_i c0
    split at h
    · rename_i c
      split at h
      · split at h
        · simp only [Option.some.injEq] at h; subst h
          simp only [c, ne_eq, not_true, false_and, if_false]
          rw [List.filterMap_eq_nil_iff]
          intro op hop
          obtain ⟨o, _, rfl⟩ := List.mem_map.1 hop
          by_cases g : o = a
          · simp [g, rReds]
          · simp [g, rReds]
        · simp only [Option.some.injEq] at h; subst h
          simp only [c, ne_eq, not_true, false_and, if_false]
          split <;> simp [rReds]
      · cases h
    · rename_i c
      split at h
      · cases h
      · simp only [Option.some.injEq] at h; subst h
        have : a ∈ ins ∨ a ∈ outs := by
          by_cases g : a ∈ ins
          · exact Or.inl g
          · by_cases g' : a ∈ outs
            · exact Or.inr g'
            · exact absurd ⟨g, g'⟩ c0
        simp [c, this, rReds]

end

/-! ### C17 -/

/-- The situation of a transition from the partitioning with ranges `F` to that
with ranges `T` in a group of `n` processes: well-formed lists sorted by
process. -/
structure TransOK (n : Nat) (F T : List TR) : Prop where
  goodF : GoodList n F
  goodT : GoodList n T
  sortF : F.Pairwise (fun a b => a.task ≤ b.task)
  sortT : T.Pairwise (fun a b => a.task ≤ b.task)
  smallF : SmallList F
  smallT : SmallList T

/-- Process `p` calculates its transition from the (possibly filtered) lists `F'`
and `T'`, the result is `st`. -/
structure Calculated (n redOp : Nat) (F T : List TR) (p : Nat) (F' T' : List TR) (st : TSt) : Prop where
  enoughF : Enough p (F ++ T) F F'
  enoughT : Enough p (F ++ T) T T'
  result : ∃ s, IsBorderSort s (transBorders F' T') ∧ calcAddReductions n redOp p s = some st

theorem GoodList.sublist {n : Nat} {L L' : List TR} (h : GoodList n L) (hs : L'.Sublist L) : GoodList n L' :=
  ⟨fun r hr => h.task r (hs.subset hr), fun r hr => h.ne r (hs.subset hr), h.dis.sublist hs⟩

theorem filtered_spec {n : Nat} (redOp : Nat) {F T : List TR} (h : TransOK n F T) {p : Nat} {F' T' : List TR}
    (eF : Enough p (F ++ T) F F') (eT : Enough p (F ++ T) T T') {s : List Border}
    (hs : IsBorderSort s (transBorders F' T')) :
    (calcAddReductions n redOp p s).map (TSt.res n p) = specOps n redOp p F T := by
  rw [calc_spec redOp p (eF.good h.goodF) (eT.good h.goodT) (eF.small h.smallF) (eT.small h.smallT) hs]
  exact specOps_filtered redOp h.goodF h.goodT h.sortF h.sortT eF eT

theorem Calculated.spec {n redOp : Nat} {F T : List TR} (h : TransOK n F T) {p : Nat} {F' T' : List TR} {st : TSt}
    (hc : Calculated n redOp F T p F' T' st) : specOps n redOp p F T = some (st.res n p) := by
  obtain ⟨s, hs, e⟩ := hc.result
  have := filtered_spec redOp h hc.enoughF hc.enoughT hs
  rw [e] at this
  exact this.symm

theorem Calculated.segs {n redOp : Nat} {F T : List TR} (h : TransOK n F T) {p : Nat} {F' T' : List TR} {st : TSt}
    (hc : Calculated n redOp F T p F' T' st) :
    (∀ s ∈ segsOf (cutsOf F T), ∃ l, specSeg n redOp p F T s.1 s.2 = some l) ∧
    st.res n p = (segsOf (cutsOf F T)).flatMap (fun s => (specSeg n redOp p F T s.1 s.2).getD []) :=
  collect_some (hc.spec h)

theorem flatMap_congr_mem {α β : Type} {f g : α → List β} {l : List α} (h : ∀ a ∈ l, f a = g a) :
    l.flatMap f = l.flatMap g := by
  induction l with
  | nil => rfl
  | cons a l ih =>
    rw [List.flatMap_cons, List.flatMap_cons, h a List.mem_cons_self, ih (fun b hb => h b (List.mem_cons_of_mem _ hb))]

/-- **C17.** The messages process `a` sends to `b` are, in order and ranges,
the ones process `b` expects from `a`; each process may use its own filtered
range lists and any correct sorting. -/
theorem C17_messages_match_partial {n redOp : Nat} {F T : List TR} (h : TransOK n F T) {a b : Nat} (hab : a ≠ b)
    {Fa Ta Fb Tb : List TR} {sa sb : TSt} (ha : Calculated n redOp F T a Fa Ta sa)
    (hb : Calculated n redOp F T b Fb Tb sb) : sendsTo b sa.ops = recvsFrom a sb.ops := by
  obtain ⟨a1, a2⟩ := ha.segs h
  obtain ⟨b1, b2⟩ := hb.segs h
  rw [sendsTo_res n a, recvsFrom_res n b, a2, b2, List.filterMap_flatMap, List.filterMap_flatMap]
  apply flatMap_congr_mem
  intro s hs
  obtain ⟨la, ea⟩ := a1 s hs
  obtain ⟨lb, eb⟩ := b1 s hs
  rw [ea, eb]
  simp only [Option.getD_some]
  rw [specSeg_sends hab ea, specSeg_recvs hab eb]

/-- **C17.** Reductions in which two processes take part appear in the same
order, for the same ranges, with the same participants on both. -/
theorem C17_reductions_match_partial {n redOp : Nat} {F T : List TR} (h : TransOK n F T) {a b : Nat}
    {Fa Ta Fb Tb : List TR} {sa sb : TSt} (ha : Calculated n redOp F T a Fa Ta sa)
    (hb : Calculated n redOp F T b Fb Tb sb) :
    (redsOf n sa).filter (fun r => r.involves b) = (redsOf n sb).filter (fun r => r.involves a) ∧
    ∀ r ∈ redsOf n sa, r.involves a = true := by
  obtain ⟨a1, a2⟩ := ha.segs h
  obtain ⟨b1, b2⟩ := hb.segs h
  rw [redsOf_res n a sa, redsOf_res n b sb, a2, b2, List.filterMap_flatMap, List.filterMap_flatMap, List.filter_flatMap,
    List.filter_flatMap]
  constructor
  · apply flatMap_congr_mem
    intro s hs
    obtain ⟨la, ea⟩ := a1 s hs
    obtain ⟨lb, eb⟩ := b1 s hs
    rw [ea, eb]
    simp only [Option.getD_some]
    rw [specSeg_reds ea, specSeg_reds eb]
    by_cases c : (ownersAt F n s.1).length = 1
    · simp [c]
    · by_cases ca : a ∈ ownersAt F n s.1 ∨ a ∈ ownersAt T n s.1
      · by_cases cb : b ∈ ownersAt F n s.1 ∨ b ∈ ownersAt T n s.1
        · simp [c, ca, cb, RedSpec.involves]
        · simp [c, ca, cb, RedSpec.involves]
      · by_cases cb : b ∈ ownersAt F n s.1 ∨ b ∈ ownersAt T n s.1
        · simp [c, ca, cb, RedSpec.involves]
        · simp [c, ca, cb]
  · intro r hr
    obtain ⟨s, hs, hr⟩ := List.mem_flatMap.1 hr
    obtain ⟨la, ea⟩ := a1 s hs
    rw [ea] at hr
    simp only [Option.getD_some] at hr
    rw [specSeg_reds ea] at hr
    split at hr
    · rename_i c
      rw [List.mem_singleton] at hr
      subst hr
      simp [RedSpec.involves, c.2]
    · cases hr

/-- **C17.** Using range lists with only own and overlapping ranges gives the
same transition as using all ranges. -/
theorem C17_filtered_lists_suffice {n : Nat} (redOp : Nat) {F T : List TR} (h : TransOK n F T) {p : Nat} {F' T' : List TR}
    (eF : Enough p (F ++ T) F F') (eT : Enough p (F ++ T) T T') {s s' : List Border}
    (hs : IsBorderSort s (transBorders F T)) (hs' : IsBorderSort s' (transBorders F' T')) :
    (calcAddReductions n redOp p s').map (TSt.res n p) = (calcAddReductions n redOp p s).map (TSt.res n p) := by
  rw [filtered_spec redOp h eF eT hs', calc_spec redOp p h.goodF h.goodT h.smallF h.smallT hs]

/-- **C17.** The calculation of a process completes if and only if at each index
owned by it before or after, either exactly one process owned the index before
and the reduction is not a custom one, or a reduction is given. -/
theorem C17_completes_iff {n : Nat} (redOp : Nat) {F T : List TR} (h : TransOK n F T) (p : Nat) {s : List Border}
    (hs : IsBorderSort s (transBorders F T)) :
    (calcAddReductions n redOp p s).isSome ↔
      ∀ i : Int, (p ∈ ownersAt F n i ∨ p ∈ ownersAt T n i) →
        if (ownersAt F n i).length = 1 then redOp < 100 else redOp ≠ 0 := by
  have e := calc_spec redOp p h.goodF h.goodT h.smallF h.smallT hs
  have : (calcAddReductions n redOp p s).isSome = (specOps n redOp p F T).isSome := by rw [← e, Option.isSome_map]
  rw [this]
  unfold specOps
  rw [collect_isSome]
  have key : ∀ x y : Int, (specSeg n redOp p F T x y).isSome ↔ ((p ∈ ownersAt F n x ∨ p ∈ ownersAt T n x) →
      if (ownersAt F n x).length = 1 then redOp < 100 else redOp ≠ 0) := by
    intro x y
    unfold specSeg
    simp only []
    by_cases c : p ∉ ownersAt F n x ∧ p ∉ ownersAt T n x
    · simp [c]
    · have c' : p ∈ ownersAt F n x ∨ p ∈ ownersAt T n x := by
        by_cases g : p ∈ ownersAt F n x
        · exact Or.inl g
        · exact Or.inr (by by_contra g'; exact c ⟨g, g'⟩)
      rw [if_neg c]
      by_cases d : (ownersAt F n x).length = 1
      · by_cases f : redOp < 100
        · by_cases g : ownersAt F n x = [p]
          · simp [f, g]
          · simp [d, f, g]
        · simp [d, f, c']
      · by_cases f : redOp = 0
        · simp [d, f, c']
        · simp [d, f]
  have cst : ∀ s ∈ segsOf (cutsOf F T), ∀ i : Int, s.1 ≤ i → i < s.2 →
      ownersAt F n i = ownersAt F n s.1 ∧ ownersAt T n i = ownersAt T n s.1 := by
    intro s hs i h1 h2
    exact ⟨owners_const_of (fun r hr => seg_has hs (Or.inl hr) ⟨h1, h2⟩),
      owners_const_of (fun r hr => seg_has hs (Or.inr hr) ⟨h1, h2⟩)⟩
  constructor
  · intro H i hi
    have : ∃ r, (r ∈ F ∨ r ∈ T) ∧ r.has i := by
      rcases hi with g | g <;> obtain ⟨r, hr, g⟩ := mem_own_of_owner g
      · exact ⟨r, Or.inl hr, g.2⟩
      · exact ⟨r, Or.inr hr, g.2⟩
    obtain ⟨r, hr, hri⟩ := this
    obtain ⟨s, hs, h1, h2⟩ := segs_cover (cutsOf_sorted F T) ((mem_cutsOf F T _).2 ⟨r, hr, Or.inl rfl⟩)
      ((mem_cutsOf F T _).2 ⟨r, hr, Or.inr rfl⟩) hri.1 hri.2
    have := (key s.1 s.2).1 (H s hs)
    obtain ⟨e1, e2⟩ := cst s hs i h1 h2
    rw [e1, e2] at hi
    rw [e1]; exact this hi
  · intro H s _
    rw [key]
    exact H s.1

/-! ### C18 -/

/-- The operation writes index `i` in the target mapping of process `t`. -/
def ROp.writes (t : Nat) (i : Int) : ROp → Bool
  | .loc x y _ _ => decide (x ≤ i ∧ i < y)
  | .send _ _ _ _ => false
  | .recv x y _ _ => decide (x ≤ i ∧ i < y)
  | .red x y _ outs _ _ => decide (x ≤ i ∧ i < y ∧ t ∈ outs)

/-- Value written for index `i` on process `t` by an operation, if the mapping of
process `p` has value `val p i` before, `redF` combines the values of several
processes, and the transition of process `p` has operations `ops p`: a receive
without matching send gets no value. -/
def ROp.value {V : Type} (ops : Nat → List ROp) (val : Nat → Int → V) (redF : List V → V) (t : Nat) (i : Int) :
    ROp → Option V
  | .loc _ _ _ _ => some (val t i)
  | .send _ _ _ _ => none
  | .recv x y _ s => if (ops s).any (fun o => match o with
      | .send x' y' _ t' => decide (x' = x ∧ y' = y ∧ t' = t)
      | _ => false) then some (val s i) else none
  | .red _ _ ins _ _ _ => some (redF (ins.map (fun s => val s i)))

/-- Specification: value at `i` after the transition. -/
def expected {V : Type} (F : List TR) (n : Nat) (val : Nat → Int → V) (redF : List V → V) (i : Int) : V :=
  match ownersAt F n i with
  | [s] => val s i
  | l => redF (l.map (fun s => val s i))

theorem flatMap_one {α β : Type} {l : List α} (f : α → List β) (hd : l.Nodup) {s : α} (hs : s ∈ l)
    (h : ∀ a ∈ l, a ≠ s → f a = []) : l.flatMap f = f s := by
  induction l with
  | nil => cases hs
  | cons a l ih =>
    rw [List.nodup_cons] at hd
    rw [List.flatMap_cons]
    by_cases e : a = s
    · subst e
      have : l.flatMap f = [] := by
        rw [List.flatMap_eq_nil_iff]
        intro b hb
        exact h b (List.mem_cons_of_mem _ hb) (fun e => hd.1 (e ▸ hb))
      rw [this, List.append_nil]
    · rw [h a List.mem_cons_self e, List.nil_append]
      apply ih hd.2
      · rcases List.mem_cons.1 hs with e' | e'
        · exact absurd e'.symm e
        · exact e'
      · exact fun b hb => h b (List.mem_cons_of_mem _ hb)

/-- Ranges of the operations for a segment. -/
theorem specSeg_range {n redOp p : Nat} {F T : List TR} {x y : Int} {l : List ROp}
    (h : specSeg n redOp p F T x y = some l) (t : Nat) (i : Int) (hi : ¬ (x ≤ i ∧ i < y)) :
    ∀ op ∈ l, op.writes t i = false := by
  unfold specSeg at h
  simp only [] at h
  intro op hop
  have hi' : (x ≤ i ∧ i < y ∧ t ∈ ownersAt T n x) = False := by
    simp only [eq_iff_iff, iff_false]; intro g; exact hi ⟨g.1, g.2.1⟩
  split at h
  · simp only [Option.some.injEq] at h; subst h; cases hop
  · split at h
    · split at h
      · split at h
        · simp only [Option.some.injEq] at h; subst h
          obtain ⟨o, _, rfl⟩ := List.mem_map.1 hop
          by_cases g : o = p
          · simp [g, ROp.writes, hi]
          · simp [g, ROp.writes]
        · simp only [Option.some.injEq] at h; subst h
          split at hop
          · rw [List.mem_singleton] at hop; subst hop
            simp [ROp.writes, hi]
          · cases hop
      · cases h
    · split at h
      · cases h
      · simp only [Option.some.injEq] at h; subst h
        rw [List.mem_singleton] at hop; subst hop
        simp only [ROp.writes, hi', decide_false]

theorem segs_nodup {l : List Int} (hl : l.Pairwise (· ≤ ·)) : (segsOf l).Nodup := by
  unfold List.Nodup
  refine List.Pairwise.imp_of_mem ?_ (segs_sorted hl)
  intro a b ha _ h e
  subst e
  have := ((segs_mem hl a).1 ha).2.2.1
  omega

/-- Values written at index `i` of process `t`, in order of operations. -/
def written {V : Type} (ops : Nat → List ROp) (val : Nat → Int → V) (redF : List V → V) (t : Nat) (i : Int) :
    List (Option V) :=
  ((ops t).filter (ROp.writes t i)).map (ROp.value ops val redF t i)

/-- **C18.** After the transition, each process owning index `i` in the target
partitioning got exactly one value for `i`: that of the only source owner, or
the reduction of the values of exactly all source owners (ascending order);
a process not owning `i` gets no value. -/
theorem C18_delivers_partial {V : Type} {n redOp : Nat} {F T : List TR} (h : TransOK n F T)
    (Fp Tp : Nat → List TR) (st : Nat → TSt) (hc : ∀ p < n, Calculated n redOp F T p (Fp p) (Tp p) (st p))
    (val : Nat → Int → V) (redF : List V → V) (t : Nat) (ht : t < n) (i : Int) :
    written (fun p => (st p).res n p) val redF t i =
      if ∃ r ∈ T, r.task = t ∧ r.has i then [some (expected F n val redF i)] else [] := by
  obtain ⟨t1, t2⟩ := (hc t ht).segs h
  unfold written
  simp only []
  rw [t2, List.filter_flatMap, List.map_flatMap]
  by_cases hseg : ∃ s ∈ segsOf (cutsOf F T), s.1 ≤ i ∧ i < s.2
  · obtain ⟨s, hs, h1, h2⟩ := hseg
    rw [flatMap_one _ (segs_nodup (cutsOf_sorted F T)) hs]
    · obtain ⟨l, e⟩ := t1 s hs
      have oF : ownersAt F n i = ownersAt F n s.1 := owners_const_of (fun r hr => seg_has hs (Or.inl hr) ⟨h1, h2⟩)
      have oT : ownersAt T n i = ownersAt T n s.1 := owners_const_of (fun r hr => seg_has hs (Or.inr hr) ⟨h1, h2⟩)
      have hown : (∃ r ∈ T, r.task = t ∧ r.has i) ↔ t ∈ ownersAt T n s.1 := by
        rw [← oT, mem_ownersAt h.goodT.task]
      rw [e]
      simp only [hown, expected, oF, Option.getD_some]
      have si := ownersAt_sorted F n s.1
      have so := ownersAt_sorted T n s.1
      have hsend : ∀ q, ownersAt F n s.1 = [q] → q ≠ t → t ∈ ownersAt T n s.1 →
          ((st q).res n q).any (fun o => match o with
            | .send x' y' _ t' => decide (x' = s.1 ∧ y' = s.2 ∧ t' = t)
            | _ => false) = true := by
        intro q hq hqt hto
        have hqn : q < n := by
          have : q ∈ ownersAt F n s.1 := by rw [hq]; simp
          unfold ownersAt at this
          rw [List.mem_filter, List.mem_range] at this
          exact this.1
        obtain ⟨q1, q2⟩ := (hc q hqn).segs h
        obtain ⟨lq, eq⟩ := q1 s hs
        rw [q2, List.any_eq_true]
        refine ⟨.send s.1 s.2 (noAt F q s.1) t, ?_, by simp⟩
        rw [List.mem_flatMap]
        refine ⟨s, hs, ?_⟩
        have eq' := eq
        unfold specSeg at eq
        simp only [hq, List.mem_singleton, not_true, false_and, if_false, List.length_singleton, if_true] at eq
        rw [eq']
        split at eq
        · simp only [Option.some.injEq] at eq
          rw [Option.getD_some, ← eq, List.mem_map]
          exact ⟨t, hto, by rw [if_neg (Ne.symm hqt)]⟩
        · cases eq
      unfold specSeg at e
      simp only [] at e
      generalize ownersAt F n s.1 = ins at *
      generalize ownersAt T n s.1 = outs at *
      split at e
      · rename_i c
        simp only [Option.some.injEq] at e; subst e
        simp [c.2]
      · split at e
        · rename_i c
          split at e
          · split at e
            · rename_i f
              simp only [Option.some.injEq] at e; subst e
              rw [f]
              simp only []
              rw [List.filter_map, List.map_map]
              have : outs.filter (ROp.writes t i ∘ fun o => if o = t then ROp.loc s.1 s.2 (noAt F t s.1) (noAt T t s.1)
                  else ROp.send s.1 s.2 (noAt F t s.1) o) = outs.filter (fun o => decide (o = t)) := by
                apply List.filter_congr
                intro o _
                by_cases g : o = t
                · simp [g, ROp.writes, h1, h2]
                · simp [g, ROp.writes]
              rw [this, filter_eq_singleton so]
              by_cases g : t ∈ outs
              · simp [g, ROp.value]
              · simp [g]
            · rename_i f
              simp only [Option.some.injEq] at e; subst e
              have hc1 := eq_single_of_length c
              generalize ins.headD 0 = q at *
              subst hc1
              by_cases g : t ∈ outs
              · have hqt : q ≠ t := by rintro rfl; exact f rfl
                have hw : ROp.writes t i (ROp.recv s.1 s.2 (noAt T t s.1) q) = true := by simp [ROp.writes, h1, h2]
                simp only [g, if_true, List.filter_cons_of_pos hw, List.filter_nil, List.map_cons, List.map_nil, ROp.value]
                rw [if_pos (hsend q rfl hqt g)]
              · simp [g]
          · cases e
        · rename_i c
          split at e
          · cases e
          · simp only [Option.some.injEq] at e; subst e
            by_cases g : t ∈ outs
            · have hw : ∀ a b, ROp.writes t i (ROp.red s.1 s.2 ins outs a b) = true := by
                intro a b; simp [ROp.writes, h1, h2, g]
              rw [List.filter_cons_of_pos (hw _ _)]
              simp only [g, if_true, List.filter_nil, List.map_cons, List.map_nil, ROp.value]
              cases ins with
              | nil => rfl
              | cons u ins =>
                cases ins with
                | nil => simp at c
                | cons v ins => rfl
            · have hw : ∀ a b, ROp.writes t i (ROp.red s.1 s.2 ins outs a b) = false := by
                intro a b; simp [ROp.writes, g]
              rw [List.filter_cons_of_neg (by rw [hw]; simp)]
              simp [g]
    · intro s' hs' hne
      obtain ⟨l, e⟩ := t1 s' hs'
      rw [e]
      simp only [Option.getD_some, List.map_eq_nil_iff, List.filter_eq_nil_iff]
      have : ¬ (s'.1 ≤ i ∧ i < s'.2) := by
        rintro ⟨g1, g2⟩
        apply hne
        have a1 := (segs_mem (cutsOf_sorted F T) s).1 hs
        have a2 := (segs_mem (cutsOf_sorted F T) s').1 hs'
        have b1 := a1.2.2.2 s'.1 a2.1
        have b2 := a1.2.2.2 s'.2 a2.2.1
        have b3 := a2.2.2.2 s.1 a1.1
        have b4 := a2.2.2.2 s.2 a1.2.1
        ext <;> omega
      intro op hop
      simp [specSeg_range e t i this op hop]
  · have hno : ¬ ∃ r ∈ T, r.task = t ∧ r.has i := by
      rintro ⟨r, hr, _, g⟩
      exact hseg (segs_cover (cutsOf_sorted F T) ((mem_cutsOf F T _).2 ⟨r, Or.inr hr, Or.inl rfl⟩)
        ((mem_cutsOf F T _).2 ⟨r, Or.inr hr, Or.inr rfl⟩) g.1 g.2)
    rw [if_neg hno, List.flatMap_eq_nil_iff]
    intro s hs
    obtain ⟨l, e⟩ := t1 s hs
    rw [e]
    simp only [Option.getD_some, List.map_eq_nil_iff, List.filter_eq_nil_iff]
    intro op hop
    simp [specSeg_range e t i (fun g => hseg ⟨s, hs, g⟩) op hop]

/-- Map `m` of process `p` holds all indices of `[x;y[`: some range of `p` with
this map number includes them. -/
def InMap (L : List TR) (p : Nat) (x y m : Int) : Prop :=
  ∃ r ∈ L, r.task = p ∧ r.mapNo = m ∧ r.box.lo.x ≤ x ∧ y ≤ r.box.hi.x

theorem noAt_inMap {L M N : List TR} {n p : Nat} {s : Int × Int} (hs : s ∈ segsOf (cutsOf M N)) (hL : ∀ r ∈ L, r ∈ M ∨ r ∈ N)
    (hp : p ∈ ownersAt L n s.1) : InMap L p s.1 s.2 (noAt L p s.1).2 := by
  obtain ⟨r, hr, h1, h2⟩ := mem_own_of_owner hp
  unfold noAt
  cases e : (numbered L).find? (fun r => decide (r.1.task = p ∧ r.1.has s.1)) with
  | none =>
    rw [← numbered_fst L] at hr
    obtain ⟨q, hq, rfl⟩ := List.mem_map.1 hr
    have := List.find?_eq_none.1 e q hq
    simp only [decide_eq_true_eq] at this
    exact absurd ⟨h1, h2⟩ this
  | some q =>
    have hq := List.mem_of_find?_eq_some e
    have hq' := List.find?_some e
    simp only [decide_eq_true_eq] at hq'
    have hqL : q.1 ∈ L := by rw [← numbered_fst L]; exact List.mem_map.2 ⟨q, hq, rfl⟩
    exact ⟨q.1, hqL, hq'.1, rfl, seg_inside hs (hL _ hqL) hq'.2⟩

/-- **C18.** Operations have non-empty ranges and refer to mappings holding all
indices of the range: source mappings for local copies, sends and inputs of
reductions, target mappings for local copies, receives and outputs of
reductions. -/
theorem C18_maps_hold_ranges {n redOp : Nat} {F T : List TR} (h : TransOK n F T) {p : Nat} {F' T' : List TR} {st : TSt}
    (hc : Calculated n redOp F T p F' T' st) : ∀ op ∈ st.res n p,
    match op with
    | .loc x y a b => x < y ∧ InMap F p x y a.2 ∧ InMap T p x y b.2
    | .send x y a _ => x < y ∧ InMap F p x y a.2
    | .recv x y b _ => x < y ∧ InMap T p x y b.2
    | .red x y ins outs a b => x < y ∧ (p ∈ ins ↔ a.isSome) ∧ (p ∈ outs ↔ b.isSome) ∧
        (∀ v, a = some v → InMap F p x y v.2) ∧ (∀ v, b = some v → InMap T p x y v.2) := by
  obtain ⟨c1, c2⟩ := hc.segs h
  intro op hop
  rw [c2] at hop
  obtain ⟨s, hs, hop⟩ := List.mem_flatMap.1 hop
  obtain ⟨l, e⟩ := c1 s hs
  rw [e, Option.getD_some] at hop
  have hlt := ((segs_mem (cutsOf_sorted F T) s).1 hs).2.2.1
  have iF : p ∈ ownersAt F n s.1 → InMap F p s.1 s.2 (noAt F p s.1).2 := noAt_inMap hs (fun r hr => Or.inl hr)
  have iT : p ∈ ownersAt T n s.1 → InMap T p s.1 s.2 (noAt T p s.1).2 := noAt_inMap hs (fun r hr => Or.inr hr)
  unfold specSeg at e
  simp only [] at e
  split at e
  · simp only [Option.some.injEq] at e; subst e; cases hop
  · split at e
    · split at e
      · split at e
        · rename_i f
          simp only [Option.some.injEq] at e; subst e
          obtain ⟨o, ho, rfl⟩ := List.mem_map.1 hop
          have hin : p ∈ ownersAt F n s.1 := by rw [f]; simp
          by_cases g : o = p
          · subst g
            rw [if_pos rfl]
            exact ⟨hlt, iF hin, iT ho⟩
          · rw [if_neg g]
            exact ⟨hlt, iF hin⟩
        · simp only [Option.some.injEq] at e; subst e
          split at hop
          · rename_i g
            rw [List.mem_singleton] at hop; subst hop
            exact ⟨hlt, iT g⟩
          · cases hop
      · cases e
    · split at e
      · cases e
      · simp only [Option.some.injEq] at e; subst e
        rw [List.mem_singleton] at hop; subst hop
        refine ⟨hlt, ?_, ?_, ?_, ?_⟩
        · by_cases g : p ∈ ownersAt F n s.1 <;> simp [g]
        · by_cases g : p ∈ ownersAt T n s.1 <;> simp [g]
        · intro v hv
          by_cases g : p ∈ ownersAt F n s.1
          · rw [if_pos g, Option.some.injEq] at hv; subst hv; exact iF g
          · rw [if_neg g] at hv; cases hv
        · intro v hv
          by_cases g : p ∈ ownersAt T n s.1
          · rw [if_pos g, Option.some.injEq] at hv; subst hv; exact iT g
          · rw [if_neg g] at hv; cases hv

/-! ### A case meeting the hypotheses -/

/-- 1d range. -/
def iv (a b : Int) : Box := ⟨⟨a, 0, 0⟩, ⟨b, 0, 0⟩⟩

/-- Three processes with blocks of 3 indices. -/
def exFrom : List TR := [⟨0, 0, iv 0 3, 0⟩, ⟨1, 0, iv 3 6, 0⟩, ⟨2, 0, iv 6 9, 0⟩]

/-- Changed blocks; index 4 goes to processes 0 and 2. -/
def exTo : List TR := [⟨0, 0, iv 0 5, 0⟩, ⟨1, 0, iv 5 6, 0⟩, ⟨2, 0, iv 4 5, 0⟩, ⟨2, 0, iv 6 9, 1⟩]

theorem exTransOK : TransOK 3 exFrom exTo := by
  refine ⟨⟨by decide, by decide, by decide⟩, ⟨by decide, by decide, by decide⟩, by decide, by decide, ?_, ?_⟩
  · intro r hr; revert r; decide
  · intro r hr; revert r; decide

/-- Overlap of two non-empty intervals as a decidable condition. -/
theorem enough_of_dec {p : Nat} {own L L' : List TR} (h1 : L'.Sublist L)
    (h2 : L'.filter (fun r => decide (r.task = p)) = L.filter (fun r => decide (r.task = p)))
    (h3 : ∀ r ∈ L, ∀ o ∈ own, o.task = p → r.box.lo.x < o.box.hi.x ∧ o.box.lo.x < r.box.hi.x → r ∈ L')
    (h4 : ∀ r ∈ L, r.box.lo.x < r.box.hi.x)
    (h5 : L.Pairwise (fun a b => a.task = b.task → a.box.hi.x ≤ b.box.lo.x ∨ b.box.hi.x ≤ a.box.lo.x))
    (h6 : L.Pairwise (fun a b => a.task ≤ b.task)) {n : Nat} (h7 : ∀ r ∈ L, r.task < n) :
    Enough p own L L' := by
  refine Enough.of_sublist ⟨h7, h4, h5⟩ h6 h1 h2 ?_
  rintro r hr o ho hp ⟨x, hx1, hx2⟩
  refine h3 r hr o ho hp ?_
  unfold TR.has at hx1 hx2
  omega

/-- Process 0 does not need the last block of the source and the last two ranges
of the target. -/
example : ∃ st, Calculated 3 0 exFrom exTo 0 (exFrom.take 2) [⟨0, 0, iv 0 5, 0⟩, ⟨2, 0, iv 4 5, 0⟩] st ∧
    st.ops = [.loc 0 3 (0, 0) (0, 0), .recv 3 4 (0, 0) 1, .recv 4 5 (0, 0) 1] := by
  refine ⟨⟨[], [], false, false, (0, 0), (0, 0), [], [.loc 0 3 (0, 0) (0, 0), .recv 3 4 (0, 0) 1, .recv 4 5 (0, 0) 1]⟩,
    ⟨enough_of_dec (n := 3) (by decide) (by decide) (by decide) (by decide) (by decide) (by decide) (by decide), enough_of_dec (n := 3) (by decide) (by decide) (by decide) (by decide) (by decide) (by decide) (by decide), ?_⟩, rfl⟩
  refine ⟨[⟨0, 0, 0, 0, true, true⟩, ⟨0, 0, 0, 0, true, false⟩, ⟨3, 0, 0, 0, false, true⟩, ⟨3, 1, 0, 0, true, true⟩,
    ⟨4, 2, 0, 0, true, false⟩, ⟨5, 0, 0, 0, false, false⟩, ⟨5, 2, 0, 0, false, false⟩, ⟨6, 1, 0, 0, false, true⟩], ?_, ?_⟩
  · exact ⟨by decide, by decide⟩
  · decide

/-- Process 1 in the same transition: sends of index 4 to both new owners. -/
example : ∃ st, Calculated 3 0 exFrom exTo 1 exFrom exTo st ∧ sendsTo 0 st.ops = [(3, 4), (4, 5)] ∧
    sendsTo 2 st.ops = [(4, 5)] := by
  refine ⟨⟨[], [], false, false, (0, 0), (0, 0), [], [.send 3 4 (0, 0) 0, .send 4 5 (0, 0) 0, .send 4 5 (0, 0) 2,
    .loc 5 6 (0, 0) (0, 0)]⟩,
    ⟨enough_of_dec (n := 3) (by decide) (by decide) (by decide) (by decide) (by decide) (by decide) (by decide), enough_of_dec (n := 3) (by decide) (by decide) (by decide) (by decide) (by decide) (by decide) (by decide), ?_⟩,
    by decide, by decide⟩
  refine ⟨[⟨0, 0, 0, 0, true, true⟩, ⟨0, 0, 0, 0, true, false⟩, ⟨3, 0, 0, 0, false, true⟩, ⟨3, 1, 0, 0, true, true⟩,
    ⟨4, 2, 0, 0, true, false⟩, ⟨5, 0, 0, 0, false, false⟩, ⟨5, 2, 0, 0, false, false⟩, ⟨5, 1, 0, 0, true, false⟩,
    ⟨6, 1, 0, 0, false, true⟩, ⟨6, 1, 0, 0, false, false⟩, ⟨6, 2, 0, 0, true, true⟩, ⟨6, 2, 0, 1, true, false⟩,
    ⟨9, 2, 0, 0, false, true⟩, ⟨9, 2, 0, 1, false, false⟩], ?_, ?_⟩
  · exact ⟨by decide, by decide⟩
  · decide

/-- A reduction (sum, code 4) of values of two processes, result on both. -/
def exAll : List TR := [⟨0, 0, iv 0 4, 0⟩, ⟨1, 0, iv 0 4, 0⟩]

example : TransOK 2 exAll exAll ∧ ∃ st, Calculated 2 4 exAll exAll 0 exAll exAll st ∧
    redsOf 2 st = [⟨0, 4, [0, 1], [0, 1]⟩] := by
  refine ⟨⟨⟨by decide, by decide, by decide⟩, ⟨by decide, by decide, by decide⟩, by decide, by decide,
    fun r hr => by revert r; decide, fun r hr => by revert r; decide⟩, ?_⟩
  refine ⟨⟨[], [], false, false, (0, 0), (0, 0), [[0, 1]], [.red 0 4 (-1) (-1) (0, 0) (0, 0)]⟩,
    ⟨enough_of_dec (n := 3) (by decide) (by decide) (by decide) (by decide) (by decide) (by decide) (by decide), enough_of_dec (n := 3) (by decide) (by decide) (by decide) (by decide) (by decide) (by decide) (by decide), ?_⟩,
    by decide⟩
  refine ⟨[⟨0, 0, 0, 0, true, true⟩, ⟨0, 1, 0, 0, true, true⟩, ⟨0, 0, 0, 0, true, false⟩, ⟨0, 1, 0, 0, true, false⟩,
    ⟨4, 0, 0, 0, false, true⟩, ⟨4, 1, 0, 0, false, true⟩, ⟨4, 0, 0, 0, false, false⟩, ⟨4, 1, 0, 0, false, false⟩], ?_, ?_⟩
  · exact ⟨by decide, by decide⟩
  · decide

/-! ### Where the code fails -/

/-- A sorting without ties is the only one. -/
theorem sort_unique {l s : List Border} (h1 : l.Pairwise (fun p q => rbCmp p q ≤ 0))
    (h2 : ∀ a ∈ l, ∀ b ∈ l, rbCmp a b ≤ 0 → rbCmp b a ≤ 0 → a = b) {l0 : List Border} (h3 : l.Perm l0)
    (hs : IsBorderSort s l0) : s = l := by
  have hp : s.Perm l := hs.1.trans h3.symm
  exact hp.eq_of_pairwise (fun a b ha hb h h' => h2 a (hp.mem_iff.1 ha) b hb h h') hs.2 h1

/-- A process with an empty range (which partitioners may produce, see
`C13_bisection_empty_range`): the calculation aborts, as the end of the empty
range is handled before its start. -/
theorem C17_empty_range_aborts (s : List Border)
    (hs : IsBorderSort s (transBorders [⟨0, 0, iv 5 5, 0⟩] [⟨0, 0, iv 0 9, 0⟩])) :
    calcAddReductions 1 0 0 s = none := by
  have := sort_unique (l := [⟨0, 0, 0, 0, true, false⟩, ⟨5, 0, 0, 0, false, true⟩, ⟨5, 0, 0, 0, true, true⟩,
    ⟨9, 0, 0, 0, false, false⟩]) (by decide) (by decide) (by decide) hs
  subst this
  decide

/-- A process with overlapping ranges in one partitioning: abort. -/
theorem C17_overlap_aborts (s : List Border)
    (hs : IsBorderSort s (transBorders [⟨0, 0, iv 0 6, 0⟩, ⟨0, 0, iv 4 9, 0⟩] [⟨0, 0, iv 1 8, 0⟩])) :
    calcAddReductions 1 0 0 s = none := by
  have := sort_unique (l := [⟨0, 0, 0, 0, true, true⟩, ⟨1, 0, 0, 0, true, false⟩, ⟨4, 0, 1, 0, true, true⟩,
    ⟨6, 0, 0, 0, false, true⟩, ⟨8, 0, 0, 0, false, false⟩, ⟨9, 0, 1, 0, false, true⟩]) (by decide) (by decide) (by decide) hs
  subst this
  decide

/-- An index nobody owned before and no reduction: abort. -/
theorem C17_unowned_aborts (s : List Border)
    (hs : IsBorderSort s (transBorders [⟨0, 0, iv 0 5, 0⟩] [⟨0, 0, iv 1 6, 0⟩])) :
    calcAddReductions 1 0 0 s = none := by
  have := sort_unique (l := [⟨0, 0, 0, 0, true, true⟩, ⟨1, 0, 0, 0, true, false⟩, ⟨5, 0, 0, 0, false, true⟩,
    ⟨6, 0, 0, 0, false, false⟩]) (by decide) (by decide) (by decide) hs
  subst this
  decide

/-- A single process owning a range with more than 2^31 indices before and
after: the comparison function truncates differences to 32 bit, ends are sorted
before starts, and the calculation aborts. -/
theorem C17_large_range_aborts (s : List Border)
    (hs : IsBorderSort s (transBorders [⟨0, 0, iv 0 (2^31 + 1), 0⟩] [⟨0, 0, iv 0 (2^31 + 1), 0⟩])) :
    calcAddReductions 1 0 0 s = none := by
  obtain ⟨hp, hso⟩ := hs
  cases s with
  | nil => exact absurd hp.length_eq (by decide)
  | cons c s =>
    rw [List.pairwise_cons] at hso
    have hc : c ∈ transBorders [⟨0, 0, iv 0 (2^31 + 1), 0⟩] [⟨0, 0, iv 0 (2^31 + 1), 0⟩] := hp.mem_iff.1 List.mem_cons_self
    have hend : (⟨2^31 + 1, 0, 0, 0, false, true⟩ : Border) ∈ c :: s := hp.mem_iff.2 (by decide)
    have hcs : c.isStart = false ∧ c.task = 0 := by
      rcases List.mem_cons.1 hend with e | e
      · rw [← e]; exact ⟨rfl, rfl⟩
      · have := hso.1 _ e
        exact (by decide : ∀ c ∈ transBorders [⟨0, 0, iv 0 (2^31 + 1), 0⟩] [⟨0, 0, iv 0 (2^31 + 1), 0⟩],
          rbCmp c ⟨2^31 + 1, 0, 0, 0, false, true⟩ ≤ 0 → c.isStart = false ∧ c.task = 0) c hc this
    unfold calcAddReductions
    rw [trav]
    have : tUpdate 0 ⟨[], [], false, false, (-1, -1), (-1, -1), [], []⟩ c = none := by
      unfold tUpdate
      rw [hcs.1]
      cases c.isInput <;> simp [removeTask]
    rw [this]

/-- `removeTask` for a task which is not in the group but larger than all tasks
in it removes another task instead of failing. -/
theorem C18_removeTask_wrong : removeTask [1, 2] 7 = some [1] := by decide

end Laik
