import Verif.Model.Transition
/-!
# The 1d transition calculation is the specified one
-/

namespace Laik

/-- Group ids of an operation are valid. -/
def TOp.valid (gs : List (List Nat)) : TOp → Prop
  | .red _ _ i o _ _ => (i = -1 ∨ (0 ≤ i ∧ i < gs.length)) ∧ (o = -1 ∨ (0 ≤ o ∧ o < gs.length))
  | _ => True

theorem transGroup_mono (n : Nat) (gs gs' : List (List Nat)) (i : Int) (h : i = -1 ∨ (0 ≤ i ∧ i < gs.length)) :
    transGroup n (gs ++ gs') i = transGroup n gs i := by
  unfold transGroup
  rcases h with h | h
  · simp [h]
  · rw [if_neg (by omega), if_neg (by omega), List.getElem?_append_left (by omega)]

theorem resolve_mono (n myid : Nat) (gs gs' : List (List Nat)) (op : TOp) (h : op.valid gs) :
    op.resolve n myid (gs ++ gs') = op.resolve n myid gs ∧ op.valid (gs ++ gs') := by
  cases op with
  | red x y i o a b =>
    obtain ⟨h1, h2⟩ := h
    simp only [TOp.resolve, transGroup_mono n gs gs' i h1, transGroup_mono n gs gs' o h2, TOp.valid,
      List.length_append, true_and]
    omega
  | loc => exact ⟨rfl, trivial⟩
  | send => exact ⟨rfl, trivial⟩
  | recv => exact ⟨rfl, trivial⟩

theorem getTaskGroup_spec (gs : List (List Nat)) (g : List Nat) :
    ∃ gs', (getTaskGroup gs g).2 = gs ++ gs' ∧ (getTaskGroup gs g).1 < (gs ++ gs').length ∧
      (gs ++ gs')[(getTaskGroup gs g).1]? = some g := by
  unfold getTaskGroup
  by_cases h : g ∈ gs
  · rw [if_pos h]
    refine ⟨[], by simp, ?_, ?_⟩
    · simpa using List.idxOf_lt_length_of_mem h
    · simp only [List.append_nil]
      rw [List.getElem?_eq_getElem (List.idxOf_lt_length_of_mem h)]
      simp
  · rw [if_neg h]
    exact ⟨[g], rfl, by simp, by simp⟩

/-- Operations of a state with groups resolved. -/
def TSt.res (n myid : Nat) (st : TSt) : List ROp := st.ops.map (TOp.resolve n myid st.groups)

def TSt.Valid (st : TSt) : Prop := ∀ op ∈ st.ops, op.valid st.groups

theorem ownersAt_full (L : List TR) (n : Nat) (x : Int) (h : (ownersAt L n x).length = n) :
    ownersAt L n x = List.range n := by
  have : (ownersAt L n x).length = (List.range n).length := by rw [h, List.length_range]
  unfold ownersAt at this ⊢
  exact List.filter_eq_self.2 (List.length_filter_eq_length_iff.1 this)

theorem filter_eq_singleton {g : List Nat} (hs : g.Pairwise (· < ·)) (t : Nat) :
    g.filter (fun o => decide (o = t)) = if t ∈ g then [t] else [] := by
  apply strictSorted_ext (hs.filter _)
  · split <;> simp
  · intro u
    rw [List.mem_filter, decide_eq_true_eq]
    split
    · rename_i h
      rw [List.mem_singleton]
      exact ⟨fun h => h.2, fun e => ⟨e ▸ h, e⟩⟩
    · rename_i h
      constructor
      · rintro ⟨h1, rfl⟩; exact absurd h1 h
      · intro h; cases h

theorem emit_spec (n redOp myid : Nat) (F T : List TR) (x y : Int) (st : TSt)
    (h1 : st.inG = ownersAt F n x) (h2 : st.outG = ownersAt T n x)
    (h3 : st.myIn = decide (myid ∈ st.inG)) (h4 : st.myOut = decide (myid ∈ st.outG))
    (h5 : myid ∈ st.inG → st.inNo = noAt F myid x) (h6 : myid ∈ st.outG → st.outNo = noAt T myid x)
    (hv : st.Valid) :
    match specSeg n redOp myid F T x y with
    | none => emit n redOp myid x y st = none
    | some l => ∃ gs ops, emit n redOp myid x y st = some { st with groups := gs, ops := ops } ∧
        ({ st with groups := gs, ops := ops } : TSt).Valid ∧
        ({ st with groups := gs, ops := ops } : TSt).res n myid = st.res n myid ++ l := by
  unfold specSeg
  rw [← h1, ← h2]
  unfold emit
  by_cases a : myid ∉ st.inG ∧ myid ∉ st.outG
  · rw [if_pos a]
    have b1 : (!(st.myIn || st.myOut)) = true := by rw [h3, h4]; simp [a.1, a.2]
    rw [if_pos b1]
    exact ⟨st.groups, st.ops, rfl, hv, by simp [TSt.res]⟩
  rw [if_neg a]
  have a' : myid ∈ st.inG ∨ myid ∈ st.outG := by
    by_cases g : myid ∈ st.inG
    · exact Or.inl g
    · by_cases g' : myid ∈ st.outG
      · exact Or.inr g'
      · exact absurd ⟨g, g'⟩ a
  have b1 : (!(st.myIn || st.myOut)) = false := by
    rw [h3, h4]; rcases a' with g | g <;> simp [g]
  have b2 : (!(st.inG.contains myid || st.outG.contains myid)) = false := by
    rcases a' with g | g <;> simp [g]
  rw [b1, b2]
  simp only [Bool.false_eq_true, if_false]
  by_cases c : st.inG.length = 1
  · rw [if_pos c, if_pos c]
    by_cases d : redOp < 100
    · rw [if_pos d, if_pos d]
      by_cases e : st.inG = [myid]
      · rw [if_pos e, if_pos e]
        have hin : myid ∈ st.inG := by rw [e]; simp
        have hres : ∀ o ∈ st.outG, TOp.resolve n myid st.groups
            (if o = myid then TOp.loc x y st.inNo st.outNo else TOp.send x y st.inNo o) =
            (if o = myid then ROp.loc x y (noAt F myid x) (noAt T myid x) else ROp.send x y (noAt F myid x) o) := by
          intro o ho
          by_cases f : o = myid
          · subst f; simp only [if_true, TOp.resolve, h5 hin, h6 ho]
          · simp only [if_neg f, TOp.resolve, h5 hin]
        have hval : ({ st with ops := st.ops ++ List.map (fun o =>
            if o = myid then TOp.loc x y st.inNo st.outNo else TOp.send x y st.inNo o) st.outG } : TSt).Valid := by
          intro op hop
          rcases List.mem_append.1 hop with g | g
          · exact hv op g
          · obtain ⟨o, _, rfl⟩ := List.mem_map.1 g
            by_cases f : o = myid
            · simp [f, TOp.valid]
            · simp [f, TOp.valid]
        have hfin : ({ st with ops := st.ops ++ List.map (fun o =>
            if o = myid then TOp.loc x y st.inNo st.outNo else TOp.send x y st.inNo o) st.outG } : TSt).res n myid
            = st.res n myid ++ st.outG.map (fun o => if o = myid then ROp.loc x y (noAt F myid x) (noAt T myid x)
              else ROp.send x y (noAt F myid x) o) := by
          simp only [TSt.res, List.map_append, List.map_map]
          congr 1
          apply List.map_congr_left
          intro o ho
          exact hres o ho
        by_cases f : st.outG = [myid]
        · rw [if_pos f]
          refine ⟨st.groups, st.ops ++ List.map (fun o =>
            if o = myid then TOp.loc x y st.inNo st.outNo else TOp.send x y st.inNo o) st.outG, ?_, hval, hfin⟩
          rw [f]; simp
        · rw [if_neg f]
          exact ⟨st.groups, _, rfl, hval, hfin⟩
      · rw [if_neg e, if_neg e]
        refine ⟨st.groups, st.ops ++ recvOps x y myid st, rfl, ?_, ?_⟩
        · intro op hop
          rcases List.mem_append.1 hop with g | g
          · exact hv op g
          · obtain ⟨o, _, rfl⟩ := List.mem_map.1 g
            trivial
        · have hso : st.outG.Pairwise (· < ·) := by rw [h2]; exact ownersAt_sorted _ _ _
          simp only [TSt.res, List.map_append, recvOps, filter_eq_singleton hso]
          congr 1
          by_cases f : myid ∈ st.outG
          · simp [f, TOp.resolve, h6 f]
          · simp [f]
    · rw [if_neg d, if_neg d]
  · rw [if_neg c, if_neg c]
    by_cases d : redOp = 0
    · simp [d]
    · simp only [if_neg d]
      obtain ⟨gs1, e1, l1, k1⟩ := getTaskGroup_spec st.groups st.inG
      obtain ⟨gs2, e2, l2, k2⟩ := getTaskGroup_spec (st.groups ++ gs1) st.outG
      rw [e1, e2]
      generalize hi : (getTaskGroup st.groups st.inG).1 = i at *
      generalize ho : (getTaskGroup (st.groups ++ gs1) st.outG).1 = o at *
      have t1 : transGroup n (st.groups ++ gs1 ++ gs2) (if st.inG.length = n then -1 else (i : Int)) = st.inG := by
        by_cases f : st.inG.length = n
        · rw [if_pos f, transGroup, if_pos rfl, h1, ownersAt_full]; rw [← h1]; exact f
        · rw [if_neg f, transGroup, if_neg (by omega), Int.toNat_natCast, List.getElem?_append_left l1, k1]
          rfl
      have t2 : transGroup n (st.groups ++ gs1 ++ gs2) (if st.outG.length = n then -1 else (o : Int)) = st.outG := by
        by_cases f : st.outG.length = n
        · rw [if_pos f, transGroup, if_pos rfl, h2, ownersAt_full]; rw [← h2]; exact f
        · rw [if_neg f, transGroup, if_neg (by omega), Int.toNat_natCast, k2]
          rfl
      refine ⟨_, _, rfl, ?_, ?_⟩
      · intro op hop
        rcases List.mem_append.1 hop with g | g
        · have := (resolve_mono n myid st.groups (gs1 ++ gs2) op (hv op g)).2
          rw [← List.append_assoc] at this
          exact this
        · rw [List.mem_singleton] at g
          subst g
          simp only [TOp.valid]
          simp only [List.length_append] at l1 l2 ⊢
          constructor
          · split
            · left; rfl
            · right; omega
          · split
            · left; rfl
            · right; omega
      · simp only [TSt.res, List.map_append, List.map_cons, List.map_nil]
        congr 1
        · apply List.map_congr_left
          intro op hop
          rw [List.append_assoc]
          exact (resolve_mono n myid st.groups (gs1 ++ gs2) op (hv op hop)).1
        · simp only [TOp.resolve, t1, t2]
          congr 2
          · by_cases f : myid ∈ st.inG
            · simp [f, h5 f]
            · simp [f]
          · by_cases f : myid ∈ st.outG
            · simp [f, h6 f]
            · simp [f]

theorem group_eq_owners {L : List TR} {n : Nat} (hL : GoodList n L) {i : Bool} {pre rest : List Border} {g : List Nat}
    {x : Int} (hg : GInv (numbered L) i pre g)
    (hin : ∀ r ∈ numbered L, sB i r ∈ pre ++ rest ∧ eB i r ∈ pre ++ rest)
    (h1 : ∀ d ∈ pre, d.b ≤ x) (h2 : ∀ d ∈ rest, x < d.b) : g = ownersAt L n x := by
  apply strictSorted_ext hg.sorted (ownersAt_sorted _ _ _)
  intro t
  rw [hg.mem, mem_ownersAt hL.task]
  constructor
  · rintro ⟨r, hr, ht, ho⟩
    refine ⟨r.1, ?_, ht, (opened_iff hin h1 h2 hr).1 ho⟩
    rw [← numbered_fst L]; exact List.mem_map.2 ⟨r, hr, rfl⟩
  · rintro ⟨r, hr, ht, ho⟩
    rw [← numbered_fst L] at hr
    obtain ⟨q, hq, rfl⟩ := List.mem_map.1 hr
    exact ⟨q, hq, ht, (opened_iff hin h1 h2 hq).2 ho⟩

theorem no_eq_noAt {L : List TR} {n : Nat} (hL : GoodList n L) {i : Bool} {pre rest : List Border} {myid : Nat}
    {x : Int} {no : Int × Int}
    (hno : ∀ r ∈ numbered L, r.1.task = myid → Opened i pre r → no = ((r.2 : Int), r.1.mapNo))
    (hin : ∀ r ∈ numbered L, sB i r ∈ pre ++ rest ∧ eB i r ∈ pre ++ rest)
    (h1 : ∀ d ∈ pre, d.b ≤ x) (h2 : ∀ d ∈ rest, x < d.b) (hm : myid ∈ ownersAt L n x) : no = noAt L myid x := by
  rw [mem_ownersAt hL.task] at hm
  obtain ⟨r, hr, ht, ho⟩ := hm
  rw [← numbered_fst L] at hr
  obtain ⟨q, hq, rfl⟩ := List.mem_map.1 hr
  unfold noAt
  cases e : (numbered L).find? (fun r => decide (r.1.task = myid ∧ r.1.has x)) with
  | none =>
    have := List.find?_eq_none.1 e q hq
    simp only [decide_eq_true_eq] at this
    exact absurd ⟨ht, ho⟩ this
  | some q' =>
    have hq' := List.mem_of_find?_eq_some e
    have := List.find?_some e
    simp only [decide_eq_true_eq] at this
    exact hno q' hq' this.1 ((opened_iff hin h1 h2 hq').2 this.2)

theorem trav_spec (n redOp myid : Nat) (F T : List TR) (hF : GoodList n F) (hT : GoodList n T)
    (s : List Border) (hs : s.Pairwise ble) (hnd : s.Nodup)
    (hmem : ∀ d, d ∈ s ↔ d ∈ bordersOf true (numbered F) ∨ d ∈ bordersOf false (numbered T)) :
    ∀ (rest pre : List Border) (st : TSt), s = pre ++ rest →
      TInv myid (numbered F) (numbered T) pre st → st.Valid →
      (trav n redOp myid st rest).map (TSt.res n myid) =
        (collect (fun s => specSeg n redOp myid F T s.1 s.2) (segsOf (rest.map (·.b)))).map (st.res n myid ++ ·) := by
  intro rest
  have hinF : ∀ r ∈ numbered F, sB true r ∈ s ∧ eB true r ∈ s := by
    intro r hr
    rw [hmem, hmem]
    exact ⟨Or.inl ((mem_bordersOf _ _ _).2 ⟨r, hr, Or.inl rfl⟩), Or.inl ((mem_bordersOf _ _ _).2 ⟨r, hr, Or.inr rfl⟩)⟩
  have hinT : ∀ r ∈ numbered T, sB false r ∈ s ∧ eB false r ∈ s := by
    intro r hr
    rw [hmem, hmem]
    exact ⟨Or.inr ((mem_bordersOf _ _ _).2 ⟨r, hr, Or.inl rfl⟩), Or.inr ((mem_bordersOf _ _ _).2 ⟨r, hr, Or.inr rfl⟩)⟩
  induction rest with
  | nil =>
    intro pre st e hI hv
    rw [List.append_nil] at e
    subst e
    have e1 : st.inG = [] := by
      rw [List.eq_nil_iff_forall_not_mem]
      intro t ht
      obtain ⟨r, hr, _, _, h2⟩ := (hI.gin.mem t).1 ht
      exact h2 (hinF r hr).2
    have e2 : st.outG = [] := by
      rw [List.eq_nil_iff_forall_not_mem]
      intro t ht
      obtain ⟨r, hr, _, _, h2⟩ := (hI.gout.mem t).1 ht
      exact h2 (hinT r hr).2
    simp [trav, e1, e2, segsOf, collect]
  | cons c rest ih =>
    intro pre st e hI hv
    have e' : s = (pre ++ [c]) ++ rest := by rw [e]; simp
    rw [e] at hs hnd hmem
    obtain ⟨st1, u1, u2, u3, u4⟩ := tUpdate_inv hF.num hT.num hs hnd hmem hI
    have hv1 : st1.Valid := by
      unfold TSt.Valid; rw [u3, u4]; exact hv
    have hr1 : st1.res n myid = st.res n myid := by unfold TSt.res; rw [u3, u4]
    rw [trav, u1]
    simp only []
    cases rest with
    | nil =>
      simp only [List.head?_nil]
      rw [ih _ _ e' u2 hv1, hr1]
      rfl
    | cons d rest =>
      simp only [List.head?_cons, List.map_cons]
      rw [segsOf]
      have hle : ∀ z ∈ pre ++ [c], z.b ≤ c.b := by
        intro z hz
        rcases List.mem_append.1 hz with hz | hz
        · have := before_le hs hz
          unfold ble at this; omega
        · rw [List.mem_singleton] at hz; subst hz; exact Int.le_refl _
      by_cases hlt : c.b < d.b
      · rw [if_pos hlt, if_pos hlt]
        have hgt : ∀ z ∈ d :: rest, c.b < z.b := by
          intro z hz
          rcases List.mem_cons.1 hz with rfl | hz
          · exact hlt
          · rw [List.pairwise_append, List.pairwise_cons, List.pairwise_cons] at hs
            have := hs.2.1.2.1 z hz
            unfold ble at this; omega
        rw [e'] at hinF hinT
        have g1 := group_eq_owners hF u2.gin hinF hle hgt
        have g2 := group_eq_owners hT u2.gout hinT hle hgt
        have sp := emit_spec n redOp myid F T c.b d.b st1 g1 g2 u2.myIn u2.myOut
          (fun h => no_eq_noAt hF u2.inNo hinF hle hgt (g1 ▸ h))
          (fun h => no_eq_noAt hT u2.outNo hinT hle hgt (g2 ▸ h)) hv1
        cases hsp : specSeg n redOp myid F T c.b d.b with
        | none =>
          rw [hsp] at sp
          simp only [] at sp
          rw [sp]
          simp [collect, hsp]
        | some l =>
          rw [hsp] at sp
          obtain ⟨gs, ops, q1, q2, q3⟩ := sp
          rw [q1]
          simp only []
          have u2' : TInv myid (numbered F) (numbered T) (pre ++ [c]) { st1 with groups := gs, ops := ops } :=
            ⟨u2.gin, u2.gout, u2.myIn, u2.myOut, u2.inNo, u2.outNo⟩
          rw [ih _ _ e' u2' q2, q3, hr1]
          simp only [collect, hsp, Option.bind_some, Option.map_map, List.map_cons]
          congr 1
          funext z
          simp
      · rw [if_neg hlt, if_neg hlt]
        simp only []
        have := ih _ _ e' u2 hv1
        rw [hr1] at this
        exact this

/-- Sorted lists with the same elements have the same list of consecutive
different values. -/
theorem sorted_perm_eq {l m : List Int} (hl : l.Pairwise (· ≤ ·)) (hm : m.Pairwise (· ≤ ·)) (h : l.Perm m) :
    l = m :=
  h.eq_of_pairwise (fun _ _ _ _ h1 h2 => Int.le_antisymm h1 h2) hl hm

theorem cutsOf_sorted (F T : List TR) : (cutsOf F T).Pairwise (· ≤ ·) := by
  have := List.pairwise_mergeSort (le := fun a b : Int => decide (a ≤ b))
    (by intro a b c; simp only [decide_eq_true_eq]; omega) (by intro a b; simp only [Bool.or_eq_true, decide_eq_true_eq]; omega)
    ((F ++ T).flatMap (fun r => [r.box.lo.x, r.box.hi.x]))
  simpa [cutsOf] using this

theorem bordersOf_b (i : Bool) (R : List (TR × Nat)) :
    (bordersOf i R).map (·.b) = (R.map (·.1)).flatMap (fun r => [r.box.lo.x, r.box.hi.x]) := by
  induction R with
  | nil => rfl
  | cons r R ih =>
    simp only [bordersOf, List.flatMap_cons, List.map_append, List.map_cons, List.map_nil, sB, eB] at ih ⊢
    rw [ih]

theorem cuts_eq {F T : List TR} {s : List Border} (hp : s.Perm (transBorders F T)) (hs : s.Pairwise ble) :
    s.map (·.b) = cutsOf F T := by
  apply sorted_perm_eq
  · rw [List.pairwise_map]
    refine hs.imp ?_
    intro a b h
    unfold ble at h; omega
  · exact cutsOf_sorted F T
  · refine (hp.map _).trans ?_
    unfold cutsOf transBorders
    rw [List.map_append, bordersOf_b, bordersOf_b, numbered_fst, numbered_fst, ← List.flatMap_append]
    exact (List.mergeSort_perm _ _).symm

theorem transBorders_small {F T : List TR} (hF : SmallList F) (hT : SmallList T) :
    ∀ c ∈ transBorders F T, -2^30 ≤ c.b ∧ c.b < 2^30 := by
  intro c hc
  have aux : ∀ (i : Bool) (L : List TR), SmallList L → c ∈ bordersOf i (numbered L) → -2^30 ≤ c.b ∧ c.b < 2^30 := by
    intro i L hL h
    obtain ⟨r, hr, h⟩ := (mem_bordersOf _ _ _).1 h
    have : r.1 ∈ L := by rw [← numbered_fst L]; exact List.mem_map.2 ⟨r, hr, rfl⟩
    have := hL _ this
    rcases h with rfl | rfl <;> simp only [sB, eB] <;> omega
  rcases List.mem_append.1 hc with h | h
  · exact aux _ _ hF h
  · exact aux _ _ hT h

theorem transBorders_nodup {n : Nat} {F T : List TR} (hF : GoodList n F) (hT : GoodList n T) :
    (transBorders F T).Nodup := by
  have h1 := bordersOf_nodup (i := true) hF.num
  have h2 := bordersOf_nodup (i := false) hT.num
  unfold transBorders
  rw [List.nodup_append]
  refine ⟨h1, h2, ?_⟩
  intro a ha b hb e
  subst e
  obtain ⟨r, _, h⟩ := (mem_bordersOf _ _ _).1 ha
  obtain ⟨q, _, g⟩ := (mem_bordersOf _ _ _).1 hb
  rcases h with rfl | rfl <;> rcases g with g | g <;> simp [sB, eB] at g

/-- The calculated operations are exactly the specified ones; the calculation
aborts exactly if there is no specified result. -/
theorem calc_spec {n : Nat} (redOp myid : Nat) {F T : List TR} (hF : GoodList n F) (hT : GoodList n T)
    (hsF : SmallList F) (hsT : SmallList T) {s : List Border} (hs : IsBorderSort s (transBorders F T)) :
    (calcAddReductions n redOp myid s).map (TSt.res n myid) = specOps n redOp myid F T := by
  have hsm := transBorders_small hsF hsT
  have hble : s.Pairwise ble := by
    refine List.Pairwise.imp_of_mem ?_ hs.2
    intro a b ha hb h
    exact (rbCmp_le a b (hsm a (hs.1.mem_iff.1 ha)) (hsm b (hs.1.mem_iff.1 hb))).1 h
  have := trav_spec n redOp myid F T hF hT s hble (hs.1.nodup_iff.2 (transBorders_nodup hF hT))
    (by intro d; rw [hs.1.mem_iff, transBorders, List.mem_append]) s [] ⟨[], [], false, false, (-1, -1), (-1, -1), [], []⟩
    rfl ⟨⟨List.Pairwise.nil, by simp [Opened]⟩, ⟨List.Pairwise.nil, by simp [Opened]⟩, by simp, by simp,
      by simp [Opened], by simp [Opened]⟩ (by intro op h; cases h)
  unfold calcAddReductions
  rw [this, cuts_eq hs.1 hble]
  unfold specOps
  have e : ((fun x => TSt.res n myid ⟨[], [], false, false, (-1, -1), (-1, -1), [], []⟩ ++ x) : List ROp → List ROp) = id := by
    funext x; simp [TSt.res]
  rw [e, Option.map_id]; rfl

/-! ### Segments -/

theorem segs_mem {l : List Int} (hl : l.Pairwise (· ≤ ·)) (s : Int × Int) :
    s ∈ segsOf l ↔ s.1 ∈ l ∧ s.2 ∈ l ∧ s.1 < s.2 ∧ ∀ z ∈ l, z ≤ s.1 ∨ s.2 ≤ z := by
  induction l with
  | nil => simp [segsOf]
  | cons a l ih =>
    cases l with
    | nil =>
      simp only [segsOf, List.not_mem_nil, List.mem_singleton, false_iff]
      rintro ⟨h1, h2, h3, _⟩
      omega
    | cons b l =>
      rw [List.pairwise_cons] at hl
      have ih := ih hl.2
      have hab := hl.1 b List.mem_cons_self
      rw [List.pairwise_cons] at hl
      have step : s ∈ segsOf (b :: l) ↔ (s ∈ segsOf (b :: l) ∧ b ≤ s.1) := by
        constructor
        · intro h
          refine ⟨h, ?_⟩
          rcases List.mem_cons.1 (ih.1 h).1 with e | e
          · omega
          · exact hl.2.1 _ e
        · exact fun h => h.1
      rw [segsOf]
      by_cases c : a < b
      · rw [if_pos c, List.mem_cons]
        constructor
        · rintro (rfl | h)
          · refine ⟨by simp, by simp, c, ?_⟩
            intro z hz
            rcases List.mem_cons.1 hz with rfl | hz
            · left; exact Int.le_refl _
            · right
              rcases List.mem_cons.1 hz with rfl | hz
              · exact Int.le_refl _
              · exact hl.2.1 z hz
          · obtain ⟨h1, h2, h3, h4⟩ := ih.1 h
            refine ⟨List.mem_cons_of_mem _ h1, List.mem_cons_of_mem _ h2, h3, ?_⟩
            intro z hz
            rcases List.mem_cons.1 hz with rfl | hz
            · left; have := (step.1 h).2; omega
            · exact h4 z hz
        · rintro ⟨h1, h2, h3, h4⟩
          rcases List.mem_cons.1 h1 with e | e
          · left
            have hb := h4 b (by simp)
            rcases List.mem_cons.1 h2 with e2 | e2
            · omega
            · have : b ≤ s.2 := by
                rcases List.mem_cons.1 e2 with e2 | e2
                · omega
                · exact hl.2.1 _ e2
              ext
              · exact e
              · show s.2 = b; omega
          · right
            rw [ih]
            refine ⟨e, ?_, h3, fun z hz => h4 z (List.mem_cons_of_mem _ hz)⟩
            rcases List.mem_cons.1 h2 with e2 | e2
            · exfalso
              have : b ≤ s.1 := by
                rcases List.mem_cons.1 e with e | e
                · omega
                · exact hl.2.1 _ e
              omega
            · exact e2
      · rw [if_neg c, ih]
        have e : a = b := by omega
        subst e
        simp

theorem segs_sorted {l : List Int} (hl : l.Pairwise (· ≤ ·)) :
    (segsOf l).Pairwise (fun s t => s.2 ≤ t.1) := by
  induction l with
  | nil => simp [segsOf]
  | cons a l ih =>
    cases l with
    | nil => simp [segsOf]
    | cons b l =>
      rw [List.pairwise_cons] at hl
      rw [segsOf]
      by_cases c : a < b
      · rw [if_pos c, List.pairwise_cons]
        refine ⟨?_, ih hl.2⟩
        intro s hs
        have h := ((segs_mem hl.2 s).1 hs).1
        rw [List.pairwise_cons] at hl
        show b ≤ s.1
        rcases List.mem_cons.1 h with e | e
        · omega
        · exact hl.2.1 _ e
      · rw [if_neg c]; exact ih hl.2

theorem segs_cover {l : List Int} (hl : l.Pairwise (· ≤ ·)) {a b i : Int} (ha : a ∈ l) (hb : b ∈ l)
    (hai : a ≤ i) (hib : i < b) : ∃ s ∈ segsOf l, s.1 ≤ i ∧ i < s.2 := by
  induction l generalizing a with
  | nil => cases ha
  | cons c l ih =>
    cases l with
    | nil => simp at ha hb; omega
    | cons d l =>
      rw [List.pairwise_cons] at hl
      have hcd := hl.1 d List.mem_cons_self
      have hca : c ≤ a := by
        rcases List.mem_cons.1 ha with e | e
        · omega
        · exact hl.1 a e
      have hb' : b ∈ d :: l := by
        rcases List.mem_cons.1 hb with e | e
        · omega
        · exact e
      by_cases h : d ≤ i
      · obtain ⟨s, hs, h2⟩ := ih hl.2 List.mem_cons_self hb' h
        refine ⟨s, ?_, h2⟩
        rw [segsOf]
        by_cases e : c < d
        · rw [if_pos e]; exact List.mem_cons_of_mem _ hs
        · rw [if_neg e]; exact hs
      · refine ⟨(c, d), ?_, by omega, by simp; omega⟩
        rw [segsOf, if_pos (by omega)]
        exact List.mem_cons_self

theorem mem_cutsOf (F T : List TR) (z : Int) :
    z ∈ cutsOf F T ↔ ∃ r, (r ∈ F ∨ r ∈ T) ∧ (z = r.box.lo.x ∨ z = r.box.hi.x) := by
  unfold cutsOf
  rw [(List.mergeSort_perm _ _).mem_iff]
  simp only [List.mem_flatMap, List.mem_append, List.mem_cons, List.not_mem_nil, or_false]

/-- Ranges contain either all or no indices of a segment. -/
theorem seg_has {F T : List TR} {s : Int × Int} (hs : s ∈ segsOf (cutsOf F T)) {r : TR} (hr : r ∈ F ∨ r ∈ T)
    {i : Int} (hi : s.1 ≤ i ∧ i < s.2) : r.has i ↔ r.has s.1 := by
  have h := ((segs_mem (cutsOf_sorted F T) s).1 hs).2.2.2
  have h1 := h r.box.lo.x ((mem_cutsOf F T _).2 ⟨r, hr, Or.inl rfl⟩)
  have h2 := h r.box.hi.x ((mem_cutsOf F T _).2 ⟨r, hr, Or.inr rfl⟩)
  unfold TR.has; omega

theorem seg_inside {F T : List TR} {s : Int × Int} (hs : s ∈ segsOf (cutsOf F T)) {r : TR} (hr : r ∈ F ∨ r ∈ T)
    (h0 : r.has s.1) : r.box.lo.x ≤ s.1 ∧ s.2 ≤ r.box.hi.x := by
  have h := ((segs_mem (cutsOf_sorted F T) s).1 hs).2.2.2
  have h2 := h r.box.hi.x ((mem_cutsOf F T _).2 ⟨r, hr, Or.inr rfl⟩)
  unfold TR.has at h0; omega

theorem owners_const_of {n : Nat} {L : List TR} {x i : Int} (h : ∀ r ∈ L, r.has i ↔ r.has x) :
    ownersAt L n i = ownersAt L n x := by
  unfold ownersAt
  apply List.filter_congr
  intro t _
  rw [Bool.eq_iff_iff, List.any_eq_true, List.any_eq_true]
  constructor
  · rintro ⟨r, hr, h1⟩
    simp only [decide_eq_true_eq] at h1
    exact ⟨r, hr, by simp only [decide_eq_true_eq]; exact ⟨h1.1, (h r hr).1 h1.2⟩⟩
  · rintro ⟨r, hr, h1⟩
    simp only [decide_eq_true_eq] at h1
    exact ⟨r, hr, by simp only [decide_eq_true_eq]; exact ⟨h1.1, (h r hr).2 h1.2⟩⟩

/-! ### `collect` -/

theorem collect_some {α β : Type} {f : α → Option (List β)} {l : List α} {r : List β} (h : collect f l = some r) :
    (∀ a ∈ l, ∃ x, f a = some x) ∧ r = l.flatMap (fun a => (f a).getD []) := by
  induction l generalizing r with
  | nil => simp only [collect, Option.some.injEq] at h; subst h; simp
  | cons a l ih =>
    rw [collect] at h
    cases e : f a with
    | none => rw [e] at h; simp at h
    | some x =>
      cases e2 : collect f l with
      | none => rw [e, e2] at h; simp at h
      | some y =>
        rw [e, e2] at h
        simp only [Option.bind_some, Option.map_some, Option.some.injEq] at h
        obtain ⟨h1, h2⟩ := ih e2
        subst h
        constructor
        · intro b hb
          rcases List.mem_cons.1 hb with rfl | hb
          · exact ⟨x, e⟩
          · exact h1 b hb
        · rw [List.flatMap_cons, e, ← h2]; rfl

theorem collect_isSome {α β : Type} {f : α → Option (List β)} {l : List α} :
    (collect f l).isSome ↔ ∀ a ∈ l, (f a).isSome := by
  induction l with
  | nil => simp [collect]
  | cons a l ih =>
    rw [collect]
    cases e : f a with
    | none => simp [e]
    | some x =>
      simp only [Option.bind_some, Option.isSome_map, ih, List.forall_mem_cons, e, Option.isSome_some, true_and]

/-- `collect` depends only on elements with a non-empty result. -/
theorem collect_filter {α β : Type} {f : α → Option (List β)} (p : α → Bool) (l : List α)
    (h : ∀ a ∈ l, p a = false → f a = some []) : collect f l = collect f (l.filter p) := by
  induction l with
  | nil => rfl
  | cons a l ih =>
    have ih := ih (fun b hb => h b (List.mem_cons_of_mem _ hb))
    cases e : p a with
    | true => rw [List.filter_cons_of_pos e, collect, collect, ih]
    | false =>
      rw [List.filter_cons_of_neg (by simp [e]), collect, h a List.mem_cons_self e, ih]
      simp

theorem collect_congr {α β : Type} {f g : α → Option (List β)} (l : List α)
    (h : ∀ a ∈ l, f a = g a) : collect f l = collect g l := by
  induction l with
  | nil => rfl
  | cons a l ih =>
    rw [collect, collect, h a List.mem_cons_self, ih (fun b hb => h b (List.mem_cons_of_mem _ hb))]

/-! ### Filtered range lists -/

theorem numGo_append (last : Option (Nat × Int)) (k : Nat) (A B : List TR) :
    ∃ last' k', numGo last k (A ++ B) = numGo last k A ++ numGo last' k' B ∧
      ((last' = last ∧ A = []) ∨ ∃ r ∈ A, last' = some (r.task, r.mapNo)) := by
  induction A generalizing last k with
  | nil => exact ⟨last, k, rfl, Or.inl ⟨rfl, rfl⟩⟩
  | cons a A ih =>
    obtain ⟨l', k', e, h⟩ := ih (some (a.task, a.mapNo)) ((if last = some (a.task, a.mapNo) then k else 0) + 1)
    refine ⟨l', k', ?_, ?_⟩
    · simp only [List.cons_append, numGo, e]
    · right
      rcases h with ⟨h, _⟩ | ⟨r, hr, h⟩
      · exact ⟨a, List.mem_cons_self, h⟩
      · exact ⟨r, List.mem_cons_of_mem _ hr, h⟩

theorem numGo_fresh (last : Option (Nat × Int)) (k : Nat) (l : List TR) (t : Nat)
    (h : ∀ r ∈ l, r.task = t) (hl : ∀ m, last ≠ some (t, m)) : numGo last k l = numbered l := by
  cases l with
  | nil => rfl
  | cons a l =>
    unfold numbered
    rw [numGo, numGo]
    have : last ≠ some (a.task, a.mapNo) := by rw [h a List.mem_cons_self]; exact hl _
    simp [this]

/-- Numbers of ranges of a process only depend on its ranges if ranges are
grouped by process. -/
theorem noAt_own (L A O B : List TR) (t : Nat) (x : Int) (hL : L = A ++ O ++ B) (hA : ∀ r ∈ A, r.task ≠ t)
    (hB : ∀ r ∈ B, r.task ≠ t) (hO : ∀ r ∈ O, r.task = t) : noAt L t x = noAt O t x := by
  obtain ⟨l1, k1, e1, h1⟩ := numGo_append none 0 (A ++ O) B
  obtain ⟨l2, k2, e2, h2⟩ := numGo_append none 0 A O
  have hfr : numGo l2 k2 O = numbered O := by
    apply numGo_fresh _ _ _ t hO
    intro m
    rcases h2 with ⟨h2, _⟩ | ⟨r, hr, h2⟩
    · rw [h2]; simp
    · rw [h2]
      intro e
      simp only [Option.some.injEq, Prod.mk.injEq] at e
      exact hA r hr e.1
  have en : numbered L = numGo none 0 A ++ numbered O ++ numGo l1 k1 B := by
    unfold numbered
    rw [hL, e1, e2, hfr]; rfl
  have f1 : ∀ (last : Option (Nat × Int)) (k : Nat) (M : List TR), (∀ r ∈ M, r.task ≠ t) →
      (numGo last k M).find? (fun r => decide (r.1.task = t ∧ r.1.has x)) = none := by
    intro last k M hM
    rw [List.find?_eq_none]
    intro q hq
    simp only [decide_eq_true_eq]
    rintro ⟨h, _⟩
    refine hM q.1 ?_ h
    rw [← numGo_fst last k M]; exact List.mem_map.2 ⟨q, hq, rfl⟩
  unfold noAt
  rw [en, List.find?_append, List.find?_append, f1 _ _ _ hA, f1 _ _ _ hB]
  simp

/-- Lists sorted by process split into other processes' and own ranges. -/
theorem split_own (L : List TR) (t : Nat) (h : L.Pairwise (fun a b => a.task ≤ b.task)) :
    ∃ A B, L = A ++ L.filter (fun r => decide (r.task = t)) ++ B ∧ (∀ r ∈ A, r.task ≠ t) ∧ (∀ r ∈ B, r.task ≠ t) := by
  refine ⟨L.filter (fun r => decide (r.task < t)), L.filter (fun r => decide (t < r.task)), ?_, ?_, ?_⟩
  · induction L with
    | nil => rfl
    | cons a L ih =>
      rw [List.pairwise_cons] at h
      have ih := ih h.2
      have e1 : t ≤ a.task → L.filter (fun r => decide (r.task < t)) = [] := by
        intro ha
        rw [List.filter_eq_nil_iff]
        intro r hr
        have := h.1 r hr
        simp only [decide_eq_true_eq]; omega
      have e2 : t < a.task → L.filter (fun r => decide (r.task = t)) = [] := by
        intro ha
        rw [List.filter_eq_nil_iff]
        intro r hr
        have := h.1 r hr
        simp only [decide_eq_true_eq]; omega
      rcases Nat.lt_trichotomy a.task t with c | c | c
      · rw [List.filter_cons_of_pos (by simp [c]), List.filter_cons_of_neg (by simp; omega),
          List.filter_cons_of_neg (by simp; omega), List.cons_append, List.cons_append, ← ih]
      · rw [List.filter_cons_of_neg (by simp; omega), List.filter_cons_of_pos (by simp [c]),
          List.filter_cons_of_neg (by simp; omega), e1 (by omega)]
        rw [e1 (by omega)] at ih
        rw [List.nil_append, List.cons_append]
        rw [List.nil_append] at ih
        rw [← ih]
      · rw [List.filter_cons_of_neg (by simp; omega), List.filter_cons_of_neg (by simp; omega),
          List.filter_cons_of_pos (by simp [c]), e1 (by omega), e2 c]
        rw [e1 (by omega), e2 c] at ih
        rw [List.nil_append, List.nil_append]
        rw [List.nil_append, List.nil_append] at ih
        rw [← ih]
  · intro r hr
    rw [List.mem_filter, decide_eq_true_eq] at hr; omega
  · intro r hr
    rw [List.mem_filter, decide_eq_true_eq] at hr; omega

/-- What process `myid` needs to know of a range list `L` for a transition: its
own ranges (same map numbers), and for its own ranges in one of the lists `own`,
the owners of each index in them and the borders inside.  The known list is
well-formed and gives no process an index it does not have in `L`. -/
structure Enough (myid : Nat) (own : List TR) (L L' : List TR) : Prop where
  ne : ∀ r ∈ L', r.box.lo.x < r.box.hi.x
  dis : L'.Pairwise (fun a b => a.task = b.task → a.box.hi.x ≤ b.box.lo.x ∨ b.box.hi.x ≤ a.box.lo.x)
  sorted : L'.Pairwise (fun a b => a.task ≤ b.task)
  part : ∀ r ∈ L', ∀ x, r.has x → ∃ q ∈ L, q.task = r.task ∧ q.has x
  mine : L'.filter (fun r => decide (r.task = myid)) = L.filter (fun r => decide (r.task = myid))
  overlap : ∀ r ∈ L, ∀ o ∈ own, o.task = myid → ∀ x, r.has x → o.has x → ∃ q ∈ L', q.task = r.task ∧ q.has x
  cuts : ∀ o ∈ own, o.task = myid → ∀ z, o.box.lo.x < z → z < o.box.hi.x →
    ((∃ r ∈ L', z = r.box.lo.x ∨ z = r.box.hi.x) ↔ ∃ r ∈ L, z = r.box.lo.x ∨ z = r.box.hi.x)

theorem Enough.good {n myid : Nat} {own L L' : List TR} (h : Enough myid own L L') (hL : GoodList n L) : GoodList n L' := by
  refine ⟨fun r hr => ?_, h.ne, h.dis⟩
  obtain ⟨q, hq, e, _⟩ := h.part r hr r.box.lo.x ⟨Int.le_refl _, h.ne r hr⟩
  rw [← e]; exact hL.task q hq

theorem Enough.small {myid : Nat} {own L L' : List TR} (h : Enough myid own L L') (hL : SmallList L) : SmallList L' := by
  intro r hr
  have hne := h.ne r hr
  obtain ⟨q, hq, _, h1, h2⟩ := h.part r hr r.box.lo.x ⟨Int.le_refl _, hne⟩
  obtain ⟨q', hq', _, h3, h4⟩ := h.part r hr (r.box.hi.x - 1) ⟨by omega, by omega⟩
  have := hL q hq
  have := hL q' hq'
  omega

theorem Enough.mem_mine {myid : Nat} {own L L' : List TR} (h : Enough myid own L L') {r : TR} (hr : r.task = myid) :
    r ∈ L' ↔ r ∈ L := by
  have : r ∈ L'.filter (fun r => decide (r.task = myid)) ↔ r ∈ L.filter (fun r => decide (r.task = myid)) := by rw [h.mine]
  simpa [List.mem_filter, hr] using this

theorem Enough.owners {n myid : Nat} {own L L' : List TR} (h : Enough myid own L L') {x : Int} {o : TR}
    (ho : o ∈ own) (hom : o.task = myid) (hx : o.has x) : ownersAt L' n x = ownersAt L n x := by
  unfold ownersAt
  apply List.filter_congr
  intro t _
  rw [Bool.eq_iff_iff, List.any_eq_true, List.any_eq_true]
  simp only [decide_eq_true_eq]
  constructor
  · rintro ⟨r, hr, h1, h2⟩
    obtain ⟨q, hq, e, h3⟩ := h.part r hr x h2
    exact ⟨q, hq, e.trans h1, h3⟩
  · rintro ⟨r, hr, h1, h2⟩
    obtain ⟨q, hq, e, h3⟩ := h.overlap r hr o ho hom x h2 hx
    exact ⟨q, hq, e.trans h1, h3⟩

theorem Enough.noAt {myid : Nat} {own L L' : List TR} (h : Enough myid own L L')
    (hs : L.Pairwise (fun a b => a.task ≤ b.task)) (x : Int) : noAt L' myid x = noAt L myid x := by
  obtain ⟨A, B, e, hA, hB⟩ := split_own L myid hs
  obtain ⟨A', B', e', hA', hB'⟩ := split_own L' myid h.sorted
  have hO : ∀ M : List TR, ∀ r ∈ M.filter (fun r => decide (r.task = myid)), r.task = myid := by
    intro M r hr
    rw [List.mem_filter, decide_eq_true_eq] at hr; exact hr.2
  rw [noAt_own L A _ B myid x e hA hB (hO L), noAt_own L' A' _ B' myid x e' hA' hB' (hO L'), h.mine]

/-- A part of the list with the own ranges and all ranges overlapping them is
enough. -/
theorem Enough.of_sublist {n myid : Nat} {own L L' : List TR} (hL : GoodList n L)
    (hs : L.Pairwise (fun a b => a.task ≤ b.task)) (sub : L'.Sublist L)
    (mine : L'.filter (fun r => decide (r.task = myid)) = L.filter (fun r => decide (r.task = myid)))
    (overlap : ∀ r ∈ L, ∀ o ∈ own, o.task = myid → (∃ x, r.has x ∧ o.has x) → r ∈ L') : Enough myid own L L' := by
  refine ⟨fun r hr => hL.ne r (sub.subset hr), hL.dis.sublist sub, hs.sublist sub,
    fun r hr x hx => ⟨r, sub.subset hr, rfl, hx⟩, mine,
    fun r hr o ho hom x h1 h2 => ⟨r, overlap r hr o ho hom ⟨x, h1, h2⟩, rfl, h1⟩, ?_⟩
  intro o ho hom z h1 h2
  constructor
  · rintro ⟨r, hr, hz⟩; exact ⟨r, sub.subset hr, hz⟩
  · rintro ⟨r, hr, hz⟩
    have hne := hL.ne r hr
    refine ⟨r, overlap r hr o ho hom ?_, hz⟩
    rcases hz with hz | hz
    · exact ⟨z, ⟨by omega, by omega⟩, ⟨by omega, by omega⟩⟩
    · exact ⟨z - 1, ⟨by omega, by omega⟩, ⟨by omega, by omega⟩⟩

/-- A list is enough for itself. -/
theorem Enough.refl {n : Nat} (myid : Nat) (own : List TR) {L : List TR} (hL : GoodList n L)
    (hs : L.Pairwise (fun a b => a.task ≤ b.task)) : Enough myid own L L :=
  Enough.of_sublist hL hs (List.Sublist.refl L) rfl (fun _ hr _ _ _ _ => hr)

theorem mem_own_of_owner {n myid : Nat} {L : List TR} {x : Int} (h : myid ∈ ownersAt L n x) :
    ∃ r ∈ L, r.task = myid ∧ r.has x := by
  simp only [ownersAt, List.mem_filter, List.any_eq_true, decide_eq_true_eq] at h
  obtain ⟨_, r, hr, h⟩ := h
  exact ⟨r, hr, h⟩

theorem pairwise_ext {l m : List (Int × Int)} (hl : l.Pairwise (fun s t => s.2 ≤ t.1))
    (hm : m.Pairwise (fun s t => s.2 ≤ t.1)) (hne : ∀ s ∈ l, s.1 < s.2) (h : ∀ s, s ∈ l ↔ s ∈ m) : l = m := by
  have hne' : ∀ s ∈ m, s.1 < s.2 := fun s hs => hne s ((h s).2 hs)
  induction l generalizing m with
  | nil =>
    cases m with
    | nil => rfl
    | cons b m => exact absurd ((h b).2 List.mem_cons_self) (by simp)
  | cons a l ih =>
    cases m with
    | nil => exact absurd ((h a).1 List.mem_cons_self) (by simp)
    | cons b m =>
      rw [List.pairwise_cons] at hl hm
      have na := hne a List.mem_cons_self
      have nb := hne' b List.mem_cons_self
      have hab : a = b := by
        rcases List.mem_cons.1 ((h a).1 List.mem_cons_self) with e | e
        · exact e
        · rcases List.mem_cons.1 ((h b).2 List.mem_cons_self) with e' | e'
          · exact e'.symm
          · have := hm.1 a e; have := hl.1 b e'; omega
      subst hab
      congr 1
      refine ih hl.2 hm.2 (fun s hs => hne s (List.mem_cons_of_mem _ hs)) ?_ (fun s hs => hne' s (List.mem_cons_of_mem _ hs))
      intro t
      constructor
      · intro ht
        rcases List.mem_cons.1 ((h t).1 (List.mem_cons_of_mem _ ht)) with e | e
        · subst e; have := hl.1 t ht; omega
        · exact e
      · intro ht
        rcases List.mem_cons.1 ((h t).2 (List.mem_cons_of_mem _ ht)) with e | e
        · subst e; have := hm.1 t ht; omega
        · exact e

/-- The operations of a process calculated from filtered lists are those
calculated from complete lists. -/
theorem specOps_filtered {n : Nat} (redOp : Nat) {myid : Nat} {F T F' T' : List TR}
    (hF : GoodList n F) (hT : GoodList n T)
    (sF : F.Pairwise (fun a b => a.task ≤ b.task)) (sT : T.Pairwise (fun a b => a.task ≤ b.task))
    (eF : Enough myid (F ++ T) F F') (eT : Enough myid (F ++ T) T T') :
    specOps n redOp myid F' T' = specOps n redOp myid F T := by
  -- activity
  have act : ∀ {L L' : List TR}, GoodList n L → Enough myid (F ++ T) L L' → ∀ x,
      (myid ∈ ownersAt L' n x ↔ myid ∈ ownersAt L n x) := by
    intro L L' hL e x
    rw [mem_ownersAt hL.task, mem_ownersAt (e.good hL).task]
    constructor
    · rintro ⟨r, hr, h1, h2⟩; exact ⟨r, (e.mem_mine h1).1 hr, h1, h2⟩
    · rintro ⟨r, hr, h1, h2⟩; exact ⟨r, (e.mem_mine h1).2 hr, h1, h2⟩
  have actF := act hF eF
  have actT := act hT eT
  have actOwn : ∀ x, (myid ∈ ownersAt F n x ∨ myid ∈ ownersAt T n x) → ∃ o ∈ F ++ T, o.task = myid ∧ o.has x := by
    rintro x (h | h)
    · obtain ⟨r, hr, h⟩ := mem_own_of_owner h
      exact ⟨r, List.mem_append_left _ hr, h⟩
    · obtain ⟨r, hr, h⟩ := mem_own_of_owner h
      exact ⟨r, List.mem_append_right _ hr, h⟩
  let p : Int × Int → Bool := fun s => decide (myid ∈ ownersAt F n s.1 ∨ myid ∈ ownersAt T n s.1)
  have keptOwn : ∀ o ∈ F ++ T, o.task = myid → (o ∈ F' ∨ o ∈ T') := by
    intro o ho hom
    rcases List.mem_append.1 ho with h | h
    · exact Or.inl ((eF.mem_mine hom).2 h)
    · exact Or.inr ((eT.mem_mine hom).2 h)
  -- cuts inside own ranges are the same
  have cutEq : ∀ z, ∀ o ∈ F ++ T, o.task = myid → o.box.lo.x ≤ z → z ≤ o.box.hi.x →
      (z ∈ cutsOf F' T' ↔ z ∈ cutsOf F T) := by
    intro z o ho hom h1 h2
    have ho' : o ∈ F ∨ o ∈ T := List.mem_append.1 ho
    by_cases c1 : z = o.box.lo.x
    · exact iff_of_true ((mem_cutsOf _ _ _).2 ⟨o, keptOwn o ho hom, Or.inl c1⟩) ((mem_cutsOf _ _ _).2 ⟨o, ho', Or.inl c1⟩)
    by_cases c2 : z = o.box.hi.x
    · exact iff_of_true ((mem_cutsOf _ _ _).2 ⟨o, keptOwn o ho hom, Or.inr c2⟩) ((mem_cutsOf _ _ _).2 ⟨o, ho', Or.inr c2⟩)
    have g1 := eF.cuts o ho hom z (by omega) (by omega)
    have g2 := eT.cuts o ho hom z (by omega) (by omega)
    rw [mem_cutsOf, mem_cutsOf]
    constructor
    · rintro ⟨r, hr | hr, hz⟩
      · obtain ⟨q, hq, hz⟩ := g1.1 ⟨r, hr, hz⟩; exact ⟨q, Or.inl hq, hz⟩
      · obtain ⟨q, hq, hz⟩ := g2.1 ⟨r, hr, hz⟩; exact ⟨q, Or.inr hq, hz⟩
    · rintro ⟨r, hr | hr, hz⟩
      · obtain ⟨q, hq, hz⟩ := g1.2 ⟨r, hr, hz⟩; exact ⟨q, Or.inl hq, hz⟩
      · obtain ⟨q, hq, hz⟩ := g2.2 ⟨r, hr, hz⟩; exact ⟨q, Or.inr hq, hz⟩
  -- active segments are the same
  have hseg : (segsOf (cutsOf F' T')).filter p = (segsOf (cutsOf F T)).filter p := by
    apply pairwise_ext ((segs_sorted (cutsOf_sorted _ _)).filter _) ((segs_sorted (cutsOf_sorted _ _)).filter _)
    · intro s hs
      rw [List.mem_filter] at hs
      exact ((segs_mem (cutsOf_sorted _ _) s).1 hs.1).2.2.1
    · intro s
      rw [List.mem_filter, List.mem_filter, segs_mem (cutsOf_sorted _ _), segs_mem (cutsOf_sorted _ _)]
      constructor
      · rintro ⟨⟨h1, h2, h3, h4⟩, hp⟩
        obtain ⟨o, ho, hom, hox⟩ := actOwn s.1 (by simpa [p] using hp)
        have h5 := h4 o.box.hi.x ((mem_cutsOf _ _ _).2 ⟨o, keptOwn o ho hom, Or.inr rfl⟩)
        unfold TR.has at hox
        refine ⟨⟨(cutEq _ o ho hom (by omega) (by omega)).1 h1, (cutEq _ o ho hom (by omega) (by omega)).1 h2, h3, ?_⟩, hp⟩
        intro z hz
        by_contra hcon
        have := h4 z ((cutEq z o ho hom (by omega) (by omega)).2 hz)
        omega
      · rintro ⟨⟨h1, h2, h3, h4⟩, hp⟩
        obtain ⟨o, ho, hom, hox⟩ := actOwn s.1 (by simpa [p] using hp)
        have ho' : o ∈ F ∨ o ∈ T := List.mem_append.1 ho
        have h5 := h4 o.box.hi.x ((mem_cutsOf _ _ _).2 ⟨o, ho', Or.inr rfl⟩)
        unfold TR.has at hox
        refine ⟨⟨(cutEq _ o ho hom (by omega) (by omega)).2 h1, (cutEq _ o ho hom (by omega) (by omega)).2 h2, h3, ?_⟩, hp⟩
        intro z hz
        by_contra hcon
        have := h4 z ((cutEq z o ho hom (by omega) (by omega)).1 hz)
        omega
  have hact : ∀ s : Int × Int, p s = false → specSeg n redOp myid F T s.1 s.2 = some [] := by
    intro s hs
    unfold specSeg
    have : myid ∉ ownersAt F n s.1 ∧ myid ∉ ownersAt T n s.1 := by
      simp only [p, decide_eq_false_iff_not] at hs
      exact ⟨fun h => hs (Or.inl h), fun h => hs (Or.inr h)⟩
    simp only [this, not_false_eq_true, and_self, if_true]
  have hact' : ∀ s : Int × Int, p s = false → specSeg n redOp myid F' T' s.1 s.2 = some [] := by
    intro s hs
    unfold specSeg
    have : myid ∉ ownersAt F' n s.1 ∧ myid ∉ ownersAt T' n s.1 := by
      simp only [p, decide_eq_false_iff_not] at hs
      rw [actF, actT]
      exact ⟨fun h => hs (Or.inl h), fun h => hs (Or.inr h)⟩
    simp only [this, not_false_eq_true, and_self, if_true]
  unfold specOps
  rw [collect_filter p _ (fun a _ => hact' a), collect_filter p (segsOf (cutsOf F T)) (fun a _ => hact a), hseg]
  apply collect_congr
  intro s hs
  rw [List.mem_filter] at hs
  obtain ⟨o, ho, hom, hox⟩ := actOwn s.1 (by simpa [p] using hs.2)
  unfold specSeg
  rw [eF.owners ho hom hox, eT.owners ho hom hox, eF.noAt sF, eT.noAt sT]

end Laik
