import Verif.Model.MpiWalk
import Verif.Model.MpiRelabel
/-!
# One group reduction of the MPI backend

Actions of `laik_aseq_addReduce3Rounds` and `laik_aseq_addReduce2Rounds` with the
contents of their messages; `elem q i` is the element of process `q` at index `i`.
-/

namespace Laik.Mp

variable {β ι : Type}

/-- Elements at `a` are those of the indexes `I`. -/
def Holds (m : Nat → β) (a es : Nat) (I : List ι) (f : ι → List β) : Prop :=
  ∀ j i, I[j]? = some i → readMem m (a + j * es) es = f i

theorem holds_read {m : Nat → β} {es : Nat} {f : ι → List β} (I : List ι) : ∀ a, Holds m a es I f →
    readMem m a (I.length * es) = I.flatMap f := by
  induction I with
  | nil => intro a _; rw [List.length_nil, Nat.zero_mul]; rfl
  | cons i I ih =>
    intro a h
    rw [List.length_cons, Nat.succ_mul, Nat.add_comm, readMem_append, List.flatMap_cons]
    congr 1
    · have := h 0 i rfl
      rwa [Nat.zero_mul] at this
    · apply ih
      intro j k hj
      have := h (j + 1) k (by rwa [List.getElem?_cons_succ])
      rw [Nat.succ_mul] at this
      rw [← this]
      congr 1
      omega

theorem read_holds {m : Nat → β} {es : Nat} {f : ι → List β} (I : List ι) : ∀ a, (∀ i ∈ I, (f i).length = es) →
    readMem m a (I.length * es) = I.flatMap f → Holds m a es I f := by
  induction I with
  | nil => intro a _ _ j i h; cases h
  | cons i I ih =>
    intro a hl h
    rw [List.length_cons, Nat.succ_mul, Nat.add_comm, readMem_append, List.flatMap_cons] at h
    obtain ⟨h1, h2⟩ := List.append_inj h (by rw [readMem_length, hl i List.mem_cons_self])
    intro j k hj
    cases j with
    | zero =>
      cases hj
      rw [Nat.zero_mul]
      exact h1
    | succ j =>
      rw [List.getElem?_cons_succ] at hj
      have := ih (a + es) (fun i hi => hl i (List.mem_cons_of_mem _ hi)) h2 j k hj
      rw [← this, Nat.succ_mul]
      congr 1
      omega

theorem Holds.congr {m m' : Nat → β} {a es : Nat} {I : List ι} {f : ι → List β} (h : Holds m a es I f)
    (he : ∀ x, a ≤ x → x < a + I.length * es → m' x = m x) : Holds m' a es I f := by
  intro j i hj
  rw [← h j i hj]
  apply readMem_congr
  intro t ht
  have hl := (List.getElem?_eq_some_iff.1 hj).1
  have := Nat.mul_le_mul_right es hl
  rw [Nat.succ_mul] at this
  exact he _ (by omega) (by omega)

theorem writeMem_holds {m : Nat → β} {a es : Nat} {I : List ι} {f : ι → List β} (hl : ∀ i ∈ I, (f i).length = es) :
    Holds (writeMem m a (I.flatMap f)) a es I f := by
  apply read_holds I a hl
  have hlen : (I.flatMap f).length = I.length * es := by
    clear m a
    induction I with
    | nil => simp
    | cons i I ih =>
      rw [List.flatMap_cons, List.length_append, hl i List.mem_cons_self, ih (fun i hi => hl i (List.mem_cons_of_mem _ hi)), List.length_cons, Nat.succ_mul,
        Nat.add_comm]
  apply List.ext_getElem?
  intro t
  by_cases ht : t < I.length * es
  · rw [readMem, List.getElem?_map, List.getElem?_range ht, Option.map_some]
    have ht' : t < (I.flatMap f).length := by omega
    rw [List.getElem?_eq_getElem ht']
    congr 1
    exact (writeMem_spec m a (I.flatMap f) (a + t)).1 t _ (List.getElem?_eq_getElem ht') rfl
  · rw [List.getElem?_eq_none (by rw [readMem_length]; omega), List.getElem?_eq_none (by omega)]

/-! ### Local operations -/

theorem redLocal_frame (c : PCtx β) (d s n : Nat) (m : Nat → β) {x : Nat} (h : ¬ (d ≤ x ∧ x < d + n * c.es)) :
    ((c.redLocal d s n).run (MSt.ofMem m)).mem x = m x := by
  rw [run_mem, if_neg]
  · rfl
  · simp only [PCtx.redLocal, decide_eq_true_eq]; exact h

theorem redLocal_holds (c : PCtx β) {d s : Nat} {I : List ι} {f g : ι → List β} {m : Nat → β} (hd : Holds m d c.es I f) (hs : Holds m s c.es I g)
    (hl : ∀ i ∈ I, (c.red (f i) (g i)).length = c.es) :
    Holds ((c.redLocal d s I.length).run (MSt.ofMem m)).mem d c.es I (fun i => c.red (f i) (g i)) := by
  intro j i hj
  have hji := (List.getElem?_eq_some_iff.1 hj).1
  have hle := Nat.mul_le_mul_right c.es hji
  rw [Nat.succ_mul] at hle
  have hlen := hl i (List.mem_of_getElem? hj)
  apply List.ext_getElem?
  intro t
  by_cases ht : t < c.es
  · rw [readMem, List.getElem?_map, List.getElem?_range ht, Option.map_some]
    rw [List.getElem?_eq_getElem (show t < (c.red (f i) (g i)).length by omega)]
    congr 1
    rw [run_mem, if_pos (by simp only [PCtx.redLocal, decide_eq_true_eq]; omega)]
    have e1 : (d + j * c.es + t - d) / c.es = j := by
      have : d + j * c.es + t - d = t + j * c.es := by omega
      rw [this, Nat.add_mul_div_right _ _ (by omega), Nat.div_eq_of_lt ht, Nat.zero_add]
    have e2 : (d + j * c.es + t - d) % c.es = t := by
      have : d + j * c.es + t - d = t + j * c.es := by omega
      rw [this, Nat.add_mul_mod_self_right, Nat.mod_eq_of_lt ht]
    show (c.red (readMem m (d + (d + j * c.es + t - d) / c.es * c.es) c.es) (readMem m (s + (d + j * c.es + t - d) / c.es * c.es) c.es)).getD
      ((d + j * c.es + t - d) % c.es) (m (d + j * c.es + t)) = _
    rw [e1, e2, hd j i hj, hs j i hj, List.getD_eq_getElem?_getD, List.getElem?_eq_getElem (by omega)]
    rfl
  · rw [List.getElem?_eq_none (by rw [readMem_length]; omega), List.getElem?_eq_none (by show (c.red (f i) (g i)).length ≤ t; omega)]

theorem initLocal_frame (c : PCtx β) (d n : Nat) (m : Nat → β) {x : Nat} (h : ¬ (d ≤ x ∧ x < d + n * c.es)) :
    ((c.initLocal d n).run (MSt.ofMem m)).mem x = m x := by
  rw [run_mem, if_neg]
  · rfl
  · simp only [PCtx.initLocal, decide_eq_true_eq]; exact h

theorem initLocal_holds (c : PCtx β) {d : Nat} {I : List ι} {m : Nat → β} (hl : c.neutral.length = c.es) :
    Holds ((c.initLocal d I.length).run (MSt.ofMem m)).mem d c.es I (fun _ => c.neutral) := by
  intro j i hj
  have hji := (List.getElem?_eq_some_iff.1 hj).1
  have hle := Nat.mul_le_mul_right c.es hji
  rw [Nat.succ_mul] at hle
  apply List.ext_getElem?
  intro t
  by_cases ht : t < c.es
  · rw [readMem, List.getElem?_map, List.getElem?_range ht, Option.map_some]
    rw [List.getElem?_eq_getElem (show t < c.neutral.length by omega)]
    congr 1
    rw [run_mem, if_pos (by simp only [PCtx.initLocal, decide_eq_true_eq]; omega)]
    have e2 : (d + j * c.es + t - d) % c.es = t := by
      have : d + j * c.es + t - d = t + j * c.es := by omega
      rw [this, Nat.add_mul_mod_self_right, Nat.mod_eq_of_lt ht]
    show c.neutral.getD ((d + j * c.es + t - d) % c.es) (m (d + j * c.es + t)) = _
    rw [e2, List.getD_eq_getElem?_getD, List.getElem?_eq_getElem (by omega)]
    rfl
  · rw [List.getElem?_eq_none (by rw [readMem_length]; omega), List.getElem?_eq_none (by show c.neutral.length ≤ t; omega)]

theorem copyOp_frame (s d n : Nat) (m : Nat → β) {x : Nat} (h : ¬ (d ≤ x ∧ x < d + n)) :
    (((copyOp s d n : MOp CKey β)).run (MSt.ofMem m)).mem x = m x := by
  rw [run_mem, if_neg]
  · rfl
  · simp only [copyOp, decide_eq_true_eq]; exact h

theorem copyOp_holds {s d es : Nat} {I : List ι} {f : ι → List β} {m : Nat → β} (h : Holds m s es I f) :
    Holds ((copyOp s d (I.length * es) : MOp CKey β).run (MSt.ofMem m)).mem d es I f := by
  intro j i hj
  have hji := (List.getElem?_eq_some_iff.1 hj).1
  have hle := Nat.mul_le_mul_right es hji
  rw [Nat.succ_mul] at hle
  rw [← h j i hj]
  apply readMem_congr
  intro t ht
  rw [run_mem, if_pos (by simp only [copyOp, decide_eq_true_eq]; omega)]
  show m (s + (d + j * es + t - d)) = m (s + j * es + t)
  congr 1
  omega

/-! ### Value of a reduction -/

/-- Value computed by process `me` for the input processes `ins` with values `f`. -/
def gredVal (red : List β → List β → List β) (neutral : List β) (me : Nat) (ins : List Nat) (f : Nat → List β) : List β :=
  if ins = [] then neutral
  else if me ∈ ins then (ins.filter (fun q => q ≠ me)).foldl (fun a q => red a (f q)) (f me)
  else (ins.filter (fun q => q ≠ me)).tail.foldl (fun a q => red a (f q)) (f ((ins.filter (fun q => q ≠ me)).headD 0))

/-- Elements have the size `es`. -/
structure ElemOK (c : PCtx β) (elem : Nat → ι → List β) : Prop where
  len : ∀ q i, (elem q i).length = c.es
  red : ∀ a b : List β, a.length = c.es → b.length = c.es → (c.red a b).length = c.es
  neutral : c.neutral.length = c.es

theorem foldl_length {c : PCtx β} {elem : Nat → ι → List β} (h : ElemOK c elem) (i : ι) (l : List Nat) : ∀ a : List β, a.length = c.es →
    (l.foldl (fun a q => c.red a (elem q i)) a).length = c.es := by
  induction l with
  | nil => intro a ha; exact ha
  | cons q l ih => intro a ha; exact ih _ (h.red _ _ ha (h.len q i))

theorem gredVal_length {c : PCtx β} {elem : Nat → ι → List β} (h : ElemOK c elem) (me : Nat) (ins : List Nat) (i : ι) :
    (gredVal c.red c.neutral me ins (fun q => elem q i)).length = c.es := by
  unfold gredVal
  split
  · exact h.neutral
  · split
    · exact foldl_length h i _ _ (h.len me i)
    · exact foldl_length h i _ _ (h.len _ i)

/-! ### Actions with contents -/

def wloc (a : CAct β) : Nat × WIt β := (a.round, ⟨a.body, [], []⟩)

def unw (x : Nat × WIt β) : CAct β := ⟨x.1, x.2.body⟩

theorem unw_wloc (l : List (CAct β)) : (l.map wloc).map unw = l := by
  rw [List.map_map]
  conv_rhs => rw [← List.map_id l]
  apply List.map_congr_left
  intro a _
  rfl

def PCtx.wRecvs (c : PCtx β) (B r cnt : Nat) (ins : List Nat) (pay : Nat → List β) : List (Nat × WIt β) :=
  (ins.filter (fun q => q ≠ c.me)).zipIdx.map (fun x => (3 * r, ⟨.comm (.recv x.1) 0 (B + x.2 * (cnt * c.es)) cnt, [], pay x.1⟩))

def PCtx.w3 (c : PCtx β) (B r s d cnt : Nat) (ins outs : List Nat) (pay : Nat → List β) (res : List β) : List (Nat × WIt β) :=
  if c.me ≠ outs.headD 0 then
    (if c.me ∈ ins then [(3 * r, ⟨.comm (.send (outs.headD 0)) s 0 cnt, pay c.me, []⟩)] else []) ++
    (if c.me ∈ outs then [(3 * r + 2, ⟨.comm (.recv (outs.headD 0)) 0 d cnt, [], res⟩)] else [])
  else
    c.wRecvs B r cnt ins pay ++ (c.slotReduce B r s d cnt ins).map wloc ++
      (outs.filter (fun q => q ≠ c.me)).map (fun q => (3 * r + 2, ⟨.comm (.send q) d 0 cnt, res, []⟩))

def PCtx.w2 (c : PCtx β) (B r s d cnt : Nat) (ins outs : List Nat) (pay : Nat → List β) : List (Nat × WIt β) :=
  (if c.me ∈ ins then (outs.filter (fun q => q ≠ c.me)).map (fun q => (3 * r, ⟨.comm (.send q) s 0 cnt, pay c.me, []⟩)) else []) ++
  (if c.me ∈ outs then c.wRecvs B r cnt ins pay ++ (c.slotReduce B r s d cnt ins).map wloc else [])

/-- Use three rounds (src/action.c 2318-2322). -/
def use3 (ins : List Nat) : Bool := decide (ins.length * ins.length > 4 * (ins.length + ins.length))

def PCtx.wG (c : PCtx β) (B r s d cnt : Nat) (ins outs : List Nat) (pay : Nat → List β) (res : List β) : List (Nat × WIt β) :=
  if use3 ins then c.w3 B r s d cnt ins outs pay res else c.w2 B r s d cnt ins outs pay

/-- Process which computes the value. -/
def calcBy (me : Nat) (ins outs : List Nat) : Nat := if use3 ins then outs.headD 0 else me

theorem wRecvs_unw (c : PCtx β) (B r cnt : Nat) (ins : List Nat) (pay : Nat → List β) :
    (c.wRecvs B r cnt ins pay).map unw = c.slotRecvs B r cnt ins := by
  unfold PCtx.wRecvs PCtx.slotRecvs
  rw [List.map_map]
  rfl

theorem w3_unw {c : PCtx β} {B r s d cnt : Nat} {ins outs : List Nat} {x : List (CAct β) × Nat} (h : c.red3 B r s d cnt ins outs = some x)
    (pay : Nat → List β) (res : List β) : (c.w3 B r s d cnt ins outs pay res).map unw = x.1 := by
  unfold PCtx.red3 at h
  cases outs with
  | nil => cases h
  | cons t os =>
    simp only at h
    unfold PCtx.w3
    rw [List.headD_cons]
    by_cases c1 : c.me ≠ t
    · rw [if_pos c1] at h ⊢
      cases h
      simp only [List.map_append]
      congr 1
      · split <;> rfl
      · split <;> rfl
    · rw [if_neg c1] at h ⊢
      split at h
      · cases h
        simp only [List.map_append, wRecvs_unw, unw_wloc]
        congr 1
        rw [List.map_map]
        rfl
      · cases h

theorem w2_unw {c : PCtx β} {B r s d cnt : Nat} {ins outs : List Nat} {x : List (CAct β) × Nat} (h : c.red2 B r s d cnt ins outs = some x)
    (pay : Nat → List β) : (c.w2 B r s d cnt ins outs pay).map unw = x.1 := by
  have h1 : (if c.me ∈ ins then (outs.filter (fun q => q ≠ c.me)).map (fun q => ((3 * r, ⟨.comm (.send q) s 0 cnt, pay c.me, []⟩) : Nat × WIt β)) else []).map unw =
      if c.me ∈ ins then (outs.filter (fun q => q ≠ c.me)).map (fun q => (⟨3 * r, .comm (.send q) s 0 cnt⟩ : CAct β)) else [] := by
    split
    · rw [List.map_map]; rfl
    · rfl
  unfold PCtx.red2 at h
  simp only at h
  unfold PCtx.w2
  rw [List.map_append, h1]
  by_cases c1 : c.me ∈ outs
  · rw [if_pos c1] at h ⊢
    split at h
    · cases h
      simp only [List.map_append, wRecvs_unw, unw_wloc, List.append_assoc]
    · cases h
  · rw [if_neg c1] at h ⊢
    cases h
    simp

/-! ### Effect -/

theorem mrun_wloc_nil (e : CEnv) (m : Nat → β) : mrun e m [] = m := rfl

def bodies (l : List (Nat × WIt β)) : List (WIt β) := l.map (·.2)

theorem slots_disj {B t t' n x : Nat} (h : t ≠ t') (h1 : B + t * n ≤ x) (h2 : x < B + t * n + n) : ¬ (B + t' * n ≤ x ∧ x < B + t' * n + n) := by
  rintro ⟨h3, h4⟩
  rcases Nat.lt_or_gt_of_ne h with c | c
  · have := Nat.mul_le_mul_right n c
    rw [Nat.succ_mul] at this
    omega
  · have := Nat.mul_le_mul_right n c
    rw [Nat.succ_mul] at this
    omega

theorem wRecvs_walk (c : PCtx β) (B r : Nat) (I : List ι) (elem : Nat → ι → List β) (h : ElemOK c elem) (l : List Nat) : ∀ (k : Nat) (m : Nat → β),
    MWalk c.env m ((l.zipIdx k).map (fun x => (⟨.comm (.recv x.1) 0 (B + x.2 * (I.length * c.es)) I.length, [], I.flatMap (elem x.1)⟩ : WIt β))) ∧
    (∀ x, (x < B + k * (I.length * c.es) ∨ B + (k + l.length) * (I.length * c.es) ≤ x) →
      mrun c.env m ((l.zipIdx k).map (fun x => (⟨.comm (.recv x.1) 0 (B + x.2 * (I.length * c.es)) I.length, [], I.flatMap (elem x.1)⟩ : WIt β))) x = m x) ∧
    (∀ t q, l[t]? = some q → Holds (mrun c.env m ((l.zipIdx k).map
      (fun x => (⟨.comm (.recv x.1) 0 (B + x.2 * (I.length * c.es)) I.length, [], I.flatMap (elem x.1)⟩ : WIt β)))) (B + (k + t) * (I.length * c.es)) c.es I (elem q)) := by
  induction l with
  | nil =>
    intro k m
    refine ⟨trivial, fun x _ => rfl, ?_⟩
    intro t q h
    cases h
  | cons q l ih =>
    intro k m
    rw [List.zipIdx_cons, List.map_cons]
    have hflen : (I.flatMap (elem q)).length = I.length * c.es := by
      have := holds_read (f := elem q) I 0 (writeMem_holds (m := m) (fun i _ => h.len q i))
      rw [← this, readMem_length]
    obtain ⟨i1, i2, i3⟩ := ih (k + 1) (mstep c.env m ⟨.comm (.recv q) 0 (B + k * (I.length * c.es)) I.length, [], I.flatMap (elem q)⟩)
    have hstep : mstep c.env m ⟨.comm (.recv q) 0 (B + k * (I.length * c.es)) I.length, [], I.flatMap (elem q)⟩ =
        writeMem m (B + k * (I.length * c.es)) (I.flatMap (elem q)) := rfl
    have hk1 : (k + 1) * (I.length * c.es) = k * (I.length * c.es) + I.length * c.es := Nat.succ_mul _ _
    refine ⟨⟨⟨(by intro hh; cases hh), fun _ => hflen⟩, i1⟩, ?_, ?_⟩
    · intro x hx
      show mrun c.env (mstep c.env m _) _ x = m x
      have hm : k * (I.length * c.es) ≤ (k + (q :: l).length) * (I.length * c.es) := Nat.mul_le_mul_right _ (by omega)
      have hm1 : (k + 1) * (I.length * c.es) ≤ (k + (q :: l).length) * (I.length * c.es) := Nat.mul_le_mul_right _ (by simp only [List.length_cons]; omega)
      have hle : k + 1 + l.length = k + (q :: l).length := by simp only [List.length_cons]; omega
      rw [i2 x (by rw [hle, hk1]; omega), hstep]
      exact (writeMem_spec _ _ _ _).2 (by rw [hflen]; omega)
    · intro t q' ht
      show Holds (mrun c.env (mstep c.env m _) _) _ _ _ _
      cases t with
      | zero =>
        cases ht
        rw [Nat.add_zero]
        refine Holds.congr (m := mstep c.env m ⟨.comm (.recv q) 0 (B + k * (I.length * c.es)) I.length, [], I.flatMap (elem q)⟩) ?_ ?_
        · rw [hstep]; exact writeMem_holds (fun i _ => h.len q i)
        · intro x h1 h2
          have hk0 : (k + 0) * (I.length * c.es) = k * (I.length * c.es) := by rw [Nat.add_zero]
          exact i2 x (Or.inl (by omega))
      | succ t =>
        rw [List.getElem?_cons_succ] at ht
        have := i3 t q' ht
        rwa [Nat.add_right_comm, Nat.add_assoc] at this

/-- Reducing slots one after the other. -/
theorem reduce_walk (c : PCtx β) (I : List ι) (elem : Nat → ι → List β) (h : ElemOK c elem) (d : Nat) (slot : Nat → Nat) (l : List Nat) :
    ∀ (k : Nat) (m : Nat → β) (f : ι → List β), Holds m d c.es I f → (∀ i, (f i).length = c.es) →
    (∀ t q, l[t]? = some q → Holds m (slot (k + t)) c.es I (elem q)) →
    (∀ t < l.length, ∀ x, slot (k + t) ≤ x → x < slot (k + t) + I.length * c.es → ¬ (d ≤ x ∧ x < d + I.length * c.es)) →
    MWalk c.env m ((List.range l.length).map (fun t => (⟨.other (c.redLocal d (slot (k + t)) I.length), [], []⟩ : WIt β))) ∧
    Holds (mrun c.env m ((List.range l.length).map (fun t => (⟨.other (c.redLocal d (slot (k + t)) I.length), [], []⟩ : WIt β)))) d c.es I
      (fun i => l.foldl (fun a q => c.red a (elem q i)) (f i)) ∧
    (∀ x, ¬ (d ≤ x ∧ x < d + I.length * c.es) →
      mrun c.env m ((List.range l.length).map (fun t => (⟨.other (c.redLocal d (slot (k + t)) I.length), [], []⟩ : WIt β))) x = m x) := by
  induction l with
  | nil =>
    intro k m f hf _ _ _
    exact ⟨trivial, hf, fun x _ => rfl⟩
  | cons q l ih =>
    intro k m f hf hfl hs hd
    have hr : (List.range (q :: l).length).map (fun t => (⟨.other (c.redLocal d (slot (k + t)) I.length), [], []⟩ : WIt β)) =
        ⟨.other (c.redLocal d (slot k) I.length), [], []⟩ ::
          (List.range l.length).map (fun t => (⟨.other (c.redLocal d (slot (k + 1 + t)) I.length), [], []⟩ : WIt β)) := by
      rw [List.length_cons, List.range_succ_eq_map, List.map_cons, List.map_map]
      congr 1
      apply List.map_congr_left
      intro t _
      simp only [Function.comp]
      rw [show k + t.succ = k + 1 + t by omega]
    rw [hr]
    have hstep : mstep c.env m ⟨.other (c.redLocal d (slot k) I.length), [], []⟩ = ((c.redLocal d (slot k) I.length).run (MSt.ofMem m)).mem := rfl
    have h0 := hs 0 q rfl
    rw [Nat.add_zero] at h0
    obtain ⟨i1, i2, i3⟩ := ih (k + 1) (mstep c.env m ⟨.other (c.redLocal d (slot k) I.length), [], []⟩) (fun i => c.red (f i) (elem q i))
      (by rw [hstep]; exact redLocal_holds c hf h0 (fun i _ => h.red _ _ (hfl i) (h.len q i)))
      (fun i => h.red _ _ (hfl i) (h.len q i))
      (by
        intro t q' ht
        have := hs (t + 1) q' (by rwa [List.getElem?_cons_succ])
        rw [show k + (t + 1) = k + 1 + t by omega] at this
        refine this.congr ?_
        intro x h1 h2
        rw [hstep]
        refine redLocal_frame c _ _ _ _ ?_
        have hl := (List.getElem?_eq_some_iff.1 ht).1
        have := hd (t + 1) (by simp only [List.length_cons]; omega) x
        rw [show k + (t + 1) = k + 1 + t by omega] at this
        exact this h1 h2)
      (by
        intro t ht x h1 h2
        have := hd (t + 1) (by simp only [List.length_cons]; omega) x
        rw [show k + (t + 1) = k + 1 + t by omega] at this
        exact this h1 h2)
    refine ⟨⟨rfl, i1⟩, i2, ?_⟩
    intro x hx
    show mrun c.env (mstep c.env m _) _ x = m x
    rw [i3 x hx, hstep]
    exact redLocal_frame c _ _ _ _ hx

/-- The local part of a reduction. -/
theorem slotReduce_walk (c : PCtx β) (I : List ι) (elem : Nat → ι → List β) (h : ElemOK c elem) (B r s d : Nat) (ins : List Nat) (m : Nat → β)
    (hs : c.me ∈ ins → Holds m s c.es I (elem c.me))
    (hslot : ∀ t q, (ins.filter (fun q => q ≠ c.me))[t]? = some q → Holds m (B + t * (I.length * c.es)) c.es I (elem q))
    (hd : ∀ x, B ≤ x → x < B + c.slotSize I.length ins → ¬ (d ≤ x ∧ x < d + I.length * c.es)) :
    MWalk c.env m (bodies ((c.slotReduce B r s d I.length ins).map wloc)) ∧
    Holds (mrun c.env m (bodies ((c.slotReduce B r s d I.length ins).map wloc))) d c.es I (fun i => gredVal c.red c.neutral c.me ins (fun q => elem q i)) ∧
    (∀ x, ¬ (d ≤ x ∧ x < d + I.length * c.es) → mrun c.env m (bodies ((c.slotReduce B r s d I.length ins).map wloc)) x = m x) := by
  have hdd : ∀ t < (ins.filter (fun q => q ≠ c.me)).length, ∀ x, B + t * (I.length * c.es) ≤ x → x < B + t * (I.length * c.es) + I.length * c.es →
      ¬ (d ≤ x ∧ x < d + I.length * c.es) := by
    intro t ht x h1 h2
    apply hd x (by omega)
    unfold PCtx.slotSize
    have := Nat.mul_le_mul_right (I.length * c.es) ht
    rw [Nat.succ_mul] at this
    omega
  unfold PCtx.slotReduce gredVal
  simp only
  by_cases c1 : ins = []
  · rw [if_pos c1]
    simp only [if_pos c1]
    refine ⟨⟨rfl, trivial⟩, ?_, ?_⟩
    · exact initLocal_holds c h.neutral
    · intro x hx
      exact initLocal_frame c _ _ _ hx
  · rw [if_neg c1]
    simp only [if_neg c1]
    by_cases c2 : c.me ∈ ins
    · rw [if_pos c2]
      simp only [if_pos c2]
      have hb : bodies (((if s = d then [] else [(⟨3 * r + 1, .other (copyOp s d (I.length * c.es))⟩ : CAct β)]) ++
          (List.range (ins.filter (fun q => q ≠ c.me)).length).map (fun t => (⟨3 * r + 1, .other (c.redLocal d (B + t * (I.length * c.es)) I.length)⟩ : CAct β))).map wloc) =
          (if s = d then [] else [(⟨.other (copyOp s d (I.length * c.es)), [], []⟩ : WIt β)]) ++
          (List.range (ins.filter (fun q => q ≠ c.me)).length).map (fun t => (⟨.other (c.redLocal d (B + (0 + t) * (I.length * c.es)) I.length), [], []⟩ : WIt β)) := by
        unfold bodies
        simp only [List.map_append, List.map_map]
        congr 1
        · split <;> rfl
        · apply List.map_congr_left
          intro t _
          simp only [Function.comp, wloc, Nat.zero_add]
      rw [hb]
      have hm1 : MWalk c.env m (if s = d then [] else [(⟨.other (copyOp s d (I.length * c.es)), [], []⟩ : WIt β)]) ∧
          Holds (mrun c.env m (if s = d then [] else [(⟨.other (copyOp s d (I.length * c.es)), [], []⟩ : WIt β)])) d c.es I (elem c.me) ∧
          ∀ x, ¬ (d ≤ x ∧ x < d + I.length * c.es) → mrun c.env m (if s = d then [] else [(⟨.other (copyOp s d (I.length * c.es)), [], []⟩ : WIt β)]) x = m x := by
        by_cases c3 : s = d
        · rw [if_pos c3]
          exact ⟨trivial, c3 ▸ hs c2, fun x _ => rfl⟩
        · rw [if_neg c3]
          refine ⟨⟨rfl, trivial⟩, copyOp_holds (hs c2), fun x hx => copyOp_frame s d _ m hx⟩
      obtain ⟨a1, a2, a3⟩ := hm1
      obtain ⟨b1, b2, b3⟩ := reduce_walk c I elem h d (fun t => B + t * (I.length * c.es)) (ins.filter (fun q => q ≠ c.me)) 0
        (mrun c.env m (if s = d then [] else [(⟨.other (copyOp s d (I.length * c.es)), [], []⟩ : WIt β)])) (elem c.me) a2 (h.len c.me)
        (by
          intro t q ht
          rw [Nat.zero_add]
          refine (hslot t q ht).congr ?_
          intro x h1 h2
          exact a3 x (hdd t (List.getElem?_eq_some_iff.1 ht).1 x h1 h2))
        (by
          intro t ht x h1 h2
          rw [Nat.zero_add] at h1 h2
          exact hdd t ht x h1 h2)
      refine ⟨(mwalk_append _ _ _ _).2 ⟨a1, b1⟩, ?_, ?_⟩
      · rw [mrun_append]; exact b2
      · intro x hx
        rw [mrun_append, b3 x hx, a3 x hx]
    · rw [if_neg c2]
      simp only [if_neg c2]
      have hf : ins.filter (fun q => q ≠ c.me) = ins := by
        rw [List.filter_eq_self]
        intro q hq
        rw [decide_eq_true_eq]
        rintro rfl
        exact c2 hq
      rw [hf] at hslot hdd ⊢
      cases ins with
      | nil => exact absurd rfl c1
      | cons q0 qs =>
        rw [List.length_cons, Nat.add_sub_cancel, List.headD_cons, List.tail_cons]
        have hb : bodies (((⟨3 * r + 1, .other (copyOp (B + 0 * (I.length * c.es)) d (I.length * c.es))⟩ : CAct β) ::
          (List.range qs.length).map (fun t => (⟨3 * r + 1, .other (c.redLocal d (B + (t + 1) * (I.length * c.es)) I.length)⟩ : CAct β))).map wloc) =
          [(⟨.other (copyOp (B + 0 * (I.length * c.es)) d (I.length * c.es)), [], []⟩ : WIt β)] ++
          (List.range qs.length).map (fun t => (⟨.other (c.redLocal d (B + (1 + t) * (I.length * c.es)) I.length), [], []⟩ : WIt β)) := by
          unfold bodies
          simp only [List.map_cons, List.map_map, List.singleton_append]
          congr 1
          apply List.map_congr_left
          intro t _
          simp only [Function.comp, wloc, Nat.add_comm]
        rw [hb]
        have a2 : Holds (mrun c.env m [(⟨.other (copyOp (B + 0 * (I.length * c.es)) d (I.length * c.es)), [], []⟩ : WIt β)]) d c.es I (elem q0) :=
          copyOp_holds (hslot 0 q0 rfl)
        have a3 : ∀ x, ¬ (d ≤ x ∧ x < d + I.length * c.es) → mrun c.env m [(⟨.other (copyOp (B + 0 * (I.length * c.es)) d (I.length * c.es)), [], []⟩ : WIt β)] x = m x :=
          fun x hx => copyOp_frame _ d _ m hx
        obtain ⟨b1, b2, b3⟩ := reduce_walk c I elem h d (fun t => B + t * (I.length * c.es)) qs 1
          (mrun c.env m [(⟨.other (copyOp (B + 0 * (I.length * c.es)) d (I.length * c.es)), [], []⟩ : WIt β)]) (elem q0) a2 (h.len q0)
          (by
            intro t q ht
            rw [Nat.add_comm 1 t]
            have ht' : (q0 :: qs)[t + 1]? = some q := by rwa [List.getElem?_cons_succ]
            refine (hslot (t + 1) q ht').congr ?_
            intro x h1 h2
            exact a3 x (hdd (t + 1) (List.getElem?_eq_some_iff.1 ht').1 x h1 h2))
          (by
            intro t ht x h1 h2
            rw [Nat.add_comm 1 t] at h1 h2
            exact hdd (t + 1) (by simp only [List.length_cons]; omega) x h1 h2)
        refine ⟨(mwalk_append _ _ _ _).2 ⟨⟨rfl, trivial⟩, b1⟩, ?_, ?_⟩
        · rw [mrun_append]; exact b2
        · intro x hx
          rw [mrun_append, b3 x hx, a3 x hx]

/-- Size of the buffer of a group reduction. -/
def PCtx.gsz (c : PCtx β) (n : Nat) (ins outs : List Nat) : Nat :=
  if use3 ins then (if c.me = outs.headD 0 then c.slotSize n ins else 0) else if c.me ∈ outs then c.slotSize n ins else 0

/-- A group reduction: contents of messages and result. -/
theorem wG_walk (c : PCtx β) (I : List ι) (elem : Nat → ι → List β) (h : ElemOK c elem) (B r s d : Nat) (ins outs : List Nat) (m : Nat → β)
    (hout : use3 ins = true → outs ≠ [])
    (hs : c.me ∈ ins → Holds m s c.es I (elem c.me))
    (hsB : c.me ∈ ins → ∀ x, B ≤ x → x < B + c.gsz I.length ins outs → ¬ (s ≤ x ∧ x < s + I.length * c.es))
    (hd : c.me ∈ outs → ∀ x, B ≤ x → x < B + c.gsz I.length ins outs → ¬ (d ≤ x ∧ x < d + I.length * c.es)) :
    MWalk c.env m (bodies (c.wG B r s d I.length ins outs (fun q => I.flatMap (elem q))
      (I.flatMap (fun i => gredVal c.red c.neutral (calcBy c.me ins outs) ins (fun q => elem q i))))) ∧
    (c.me ∈ outs → Holds (mrun c.env m (bodies (c.wG B r s d I.length ins outs (fun q => I.flatMap (elem q))
      (I.flatMap (fun i => gredVal c.red c.neutral (calcBy c.me ins outs) ins (fun q => elem q i)))))) d c.es I
      (fun i => gredVal c.red c.neutral (calcBy c.me ins outs) ins (fun q => elem q i))) ∧
    (∀ x, ¬ (c.me ∈ outs ∧ d ≤ x ∧ x < d + I.length * c.es) → ¬ (B ≤ x ∧ x < B + c.gsz I.length ins outs) →
      mrun c.env m (bodies (c.wG B r s d I.length ins outs (fun q => I.flatMap (elem q))
      (I.flatMap (fun i => gredVal c.red c.neutral (calcBy c.me ins outs) ins (fun q => elem q i))))) x = m x) := by
  have hflen : ∀ (f : ι → List β), (∀ i ∈ I, (f i).length = c.es) → (I.flatMap f).length = I.length * c.es := by
    intro f hf
    have := holds_read (f := f) I 0 (writeMem_holds (m := m) hf)
    rw [← this, readMem_length]
  -- receives and local part
  have core : c.me ∈ outs → c.gsz I.length ins outs = c.slotSize I.length ins → MWalk c.env m (bodies (c.wRecvs B r I.length ins (fun q => I.flatMap (elem q)) ++ (c.slotReduce B r s d I.length ins).map wloc)) ∧
      Holds (mrun c.env m (bodies (c.wRecvs B r I.length ins (fun q => I.flatMap (elem q)) ++ (c.slotReduce B r s d I.length ins).map wloc))) d c.es I
        (fun i => gredVal c.red c.neutral c.me ins (fun q => elem q i)) ∧
      (∀ x, ¬ (d ≤ x ∧ x < d + I.length * c.es) → ¬ (B ≤ x ∧ x < B + c.slotSize I.length ins) →
        mrun c.env m (bodies (c.wRecvs B r I.length ins (fun q => I.flatMap (elem q)) ++ (c.slotReduce B r s d I.length ins).map wloc)) x = m x) := by
    intro ho hsz
    rw [hsz] at hsB hd
    obtain ⟨a1, a2, a3⟩ := wRecvs_walk c B r I elem h (ins.filter (fun q => q ≠ c.me)) 0 m
    have eb : bodies (c.wRecvs B r I.length ins (fun q => I.flatMap (elem q))) = ((ins.filter (fun q => q ≠ c.me)).zipIdx 0).map
        (fun x => (⟨.comm (.recv x.1) 0 (B + x.2 * (I.length * c.es)) I.length, [], I.flatMap (elem x.1)⟩ : WIt β)) := by
      unfold bodies PCtx.wRecvs
      rw [List.map_map]
      rfl
    rw [← eb] at a1 a2 a3
    have a2' : ∀ x, ¬ (B ≤ x ∧ x < B + c.slotSize I.length ins) → mrun c.env m (bodies (c.wRecvs B r I.length ins (fun q => I.flatMap (elem q)))) x = m x := by
      intro x hx
      apply a2 x
      unfold PCtx.slotSize at hx
      rw [Nat.zero_mul, Nat.zero_add]
      omega
    obtain ⟨b1, b2, b3⟩ := slotReduce_walk c I elem h B r s d ins (mrun c.env m (bodies (c.wRecvs B r I.length ins (fun q => I.flatMap (elem q)))))
      (by
        intro hi
        refine (hs hi).congr ?_
        intro x h1 h2
        apply a2'
        intro hx
        exact hsB hi x hx.1 hx.2 ⟨h1, h2⟩)
      (by
        intro t q ht
        have := a3 t q ht
        rwa [Nat.zero_add] at this)
      (hd ho)
    have eapp : bodies (c.wRecvs B r I.length ins (fun q => I.flatMap (elem q)) ++ (c.slotReduce B r s d I.length ins).map wloc) =
        bodies (c.wRecvs B r I.length ins (fun q => I.flatMap (elem q))) ++ bodies ((c.slotReduce B r s d I.length ins).map wloc) := List.map_append
    rw [eapp]
    refine ⟨(mwalk_append _ _ _ _).2 ⟨a1, b1⟩, ?_, ?_⟩
    · rw [mrun_append]; exact b2
    · intro x h1 h2
      rw [mrun_append, b3 x h1, a2' x h2]
  -- sends
  have snds : ∀ (m' : Nat → β) (a : Nat) (f : ι → List β) (rr : Nat) (l : List Nat), Holds m' a c.es I f →
      MWalk c.env m' (bodies (l.map (fun q => ((rr, ⟨.comm (.send q) a 0 I.length, I.flatMap f, []⟩) : Nat × WIt β)))) ∧
      mrun c.env m' (bodies (l.map (fun q => ((rr, ⟨.comm (.send q) a 0 I.length, I.flatMap f, []⟩) : Nat × WIt β)))) = m' := by
    intro m' a f rr l hh
    induction l with
    | nil => exact ⟨trivial, rfl⟩
    | cons q l ih =>
      have hst : mstep c.env m' ⟨.comm (.send q) a 0 I.length, I.flatMap f, []⟩ = m' := rfl
      refine ⟨⟨⟨fun _ => holds_read I a hh, (by intro hc; cases hc)⟩, ?_⟩, ?_⟩
      · rw [hst]; exact ih.1
      · show mrun c.env (mstep c.env m' _) _ = m'
        rw [hst]; exact ih.2
  unfold PCtx.wG calcBy
  by_cases c1 : use3 ins = true
  · rw [if_pos c1, if_pos c1]
    unfold PCtx.w3
    by_cases c2 : c.me ≠ outs.headD 0
    · rw [if_pos c2]
      have s1 : MWalk c.env m (bodies (if c.me ∈ ins then [((3 * r, ⟨.comm (.send (outs.headD 0)) s 0 I.length, I.flatMap (elem c.me), []⟩) : Nat × WIt β)] else [])) ∧
          mrun c.env m (bodies (if c.me ∈ ins then [((3 * r, ⟨.comm (.send (outs.headD 0)) s 0 I.length, I.flatMap (elem c.me), []⟩) : Nat × WIt β)] else [])) = m := by
        split
        · rename_i hi
          exact snds m s (elem c.me) (3 * r) [outs.headD 0] (hs hi)
        · exact ⟨trivial, rfl⟩
      have eapp : ∀ A C : List (Nat × WIt β), bodies (A ++ C) = bodies A ++ bodies C := fun A C => List.map_append
      rw [eapp, mwalk_append, mrun_append, s1.2]
      by_cases c3 : c.me ∈ outs
      · rw [if_pos c3]
        have hl : ∀ i ∈ I, (gredVal c.red c.neutral (outs.headD 0) ins (fun q => elem q i)).length = c.es := fun i _ => gredVal_length h _ _ i
        refine ⟨⟨s1.1, ⟨(by intro hh; cases hh), fun _ => hflen _ hl⟩, trivial⟩, ?_, ?_⟩
        · intro _
          exact writeMem_holds hl
        · intro x h1 _
          refine (writeMem_spec _ _ _ _).2 ?_
          rw [hflen _ hl]
          intro hx
          exact h1 ⟨c3, hx⟩
      · rw [if_neg c3]
        exact ⟨⟨s1.1, trivial⟩, fun hh => absurd hh c3, fun x _ _ => rfl⟩
    · rw [if_neg c2]
      have hme : c.me = outs.headD 0 := not_not.1 c2
      have ho : c.me ∈ outs := by
        rw [hme]
        cases outs with
        | nil => exact absurd rfl (hout c1)
        | cons t os => exact List.mem_cons_self
      have hsz : c.gsz I.length ins outs = c.slotSize I.length ins := by unfold PCtx.gsz; rw [if_pos c1, if_pos hme]
      obtain ⟨k1, k2, k3⟩ := core ho hsz
      rw [← hme]
      have eapp : ∀ A C : List (Nat × WIt β), bodies (A ++ C) = bodies A ++ bodies C := fun A C => List.map_append
      obtain ⟨t1, t2⟩ := snds _ d _ (3 * r + 2) (outs.filter (fun q => q ≠ c.me)) k2
      rw [eapp, mwalk_append, mrun_append, t2]
      exact ⟨⟨k1, t1⟩, fun _ => k2, fun x h1 h2 => k3 x (fun hx => h1 ⟨ho, hx⟩) (fun hx => h2 (hsz ▸ hx))⟩
  · rw [if_neg c1, if_neg c1]
    unfold PCtx.w2
    have s1 : MWalk c.env m (bodies (if c.me ∈ ins then (outs.filter (fun q => q ≠ c.me)).map
          (fun q => ((3 * r, ⟨.comm (.send q) s 0 I.length, I.flatMap (elem c.me), []⟩) : Nat × WIt β)) else [])) ∧
        mrun c.env m (bodies (if c.me ∈ ins then (outs.filter (fun q => q ≠ c.me)).map
          (fun q => ((3 * r, ⟨.comm (.send q) s 0 I.length, I.flatMap (elem c.me), []⟩) : Nat × WIt β)) else [])) = m := by
      split
      · rename_i hi
        exact snds m s (elem c.me) (3 * r) _ (hs hi)
      · exact ⟨trivial, rfl⟩
    have eapp : ∀ A C : List (Nat × WIt β), bodies (A ++ C) = bodies A ++ bodies C := fun A C => List.map_append
    rw [eapp, mwalk_append, mrun_append, s1.2]
    by_cases c3 : c.me ∈ outs
    · rw [if_pos c3]
      have hsz : c.gsz I.length ins outs = c.slotSize I.length ins := by unfold PCtx.gsz; rw [if_neg c1, if_pos c3]
      obtain ⟨k1, k2, k3⟩ := core c3 hsz
      exact ⟨⟨s1.1, k1⟩, fun _ => k2, fun x h1 h2 => k3 x (fun hx => h1 ⟨c3, hx⟩) (fun hx => h2 (hsz ▸ hx))⟩
    · rw [if_neg c3]
      exact ⟨⟨s1.1, trivial⟩, fun hh => absurd hh c3, fun x _ _ => rfl⟩

end Laik.Mp
