import Verif.Model.MpiNet
/-!
# Actions with the contents of their messages

`MWalk`: starting with a memory, all actions send the contents `out` when they
receive the contents `inn`.
-/

namespace Laik.Mp

variable {β : Type}

/-- Action with contents sent or contributed, and contents got. -/
structure WIt (β : Type) where
  body : CBody β
  out : List β
  inn : List β

/-- Cells read. -/
def rd (e : CEnv) (b : CBody β) (x : Nat) : Prop :=
  match b with
  | .comm k s _ n => e.isIn k = true ∧ s ≤ x ∧ x < s + n * e.elemsize
  | .other op => op.R x

/-- Cells written. -/
def wr (e : CEnv) (b : CBody β) (x : Nat) : Bool :=
  match b with
  | .comm k _ d n => e.isOut k && decide (d ≤ x ∧ x < d + n * e.elemsize)
  | .other op => op.W x

theorem rd_op (e : CEnv) (inp : CKey → Nat → β) (b : CBody β) (x : Nat) : (b.op e inp).R x ↔ rd e b x := by
  cases b <;> exact Iff.rfl

theorem wr_op (e : CEnv) (inp : CKey → Nat → β) (b : CBody β) (x : Nat) : (b.op e inp).W x = wr e b x := by
  cases b <;> rfl

def mstep (e : CEnv) (m : Nat → β) (w : WIt β) : Nat → β :=
  match w.body with
  | .comm k _ d _ => if e.isOut k then writeMem m d w.inn else m
  | .other op => (op.run (MSt.ofMem m)).mem

def mrun (e : CEnv) (m : Nat → β) (l : List (WIt β)) : Nat → β := l.foldl (mstep e) m

def wexp (e : CEnv) (m : Nat → β) (w : WIt β) : Prop :=
  match w.body with
  | .comm k s _ n => (e.isIn k = true → readMem m s (n * e.elemsize) = w.out) ∧ (e.isOut k = true → w.inn.length = n * e.elemsize)
  | .other op => op.key = none

def MWalk (e : CEnv) : (Nat → β) → List (WIt β) → Prop
  | _, [] => True
  | m, w :: l => wexp e m w ∧ MWalk e (mstep e m w) l

/-- Contents sent with key `k`. -/
def WIt.outK (e : CEnv) (k : CKey) (w : WIt β) : List β :=
  match w.body with
  | .comm k' _ _ _ => if k' = k ∧ e.isIn k = true then w.out else []
  | .other _ => []

/-- Contents got with key `k`. -/
def WIt.innK (e : CEnv) (k : CKey) (w : WIt β) : List β :=
  match w.body with
  | .comm k' _ _ _ => if k' = k ∧ e.isOut k = true then w.inn else []
  | .other _ => []

theorem writeMem_spec (m : Nat → β) (d : Nat) (vs : List β) (x : Nat) :
    (∀ i v, vs[i]? = some v → x = d + i → writeMem m d vs x = v) ∧ (¬ (d ≤ x ∧ x < d + vs.length) → writeMem m d vs x = m x) := by
  unfold writeMem
  constructor
  · rintro i v h rfl
    rw [if_pos (by omega), Nat.add_sub_cancel_left, List.getD_eq_getElem?_getD, h]
    rfl
  · intro h
    by_cases c : d ≤ x
    · rw [if_pos c, List.getD_eq_getElem?_getD, List.getElem?_eq_none (by omega)]
      rfl
    · rw [if_neg c]

theorem nokey_run_mem {op : MOp CKey β} (h : op.key = none) (s : MSt CKey β) : (op.run s).mem = (op.run (MSt.ofMem s.mem)).mem := by
  funext x
  rw [run_mem, run_mem]
  have : op.posOf s = op.posOf (MSt.ofMem s.mem) := by unfold MOp.posOf; rw [h]; rfl
  rw [this]
  rfl

/-- One action in the semantics with streams. -/
theorem step_run (e : CEnv) (inp : CKey → Nat → β) (w : WIt β) (s : MSt CKey β) (hw : wexp e s.mem w)
    (hi : ∀ k, ∀ i v, (w.innK e k)[i]? = some v → inp k (s.pos k + i) = v) :
    ((w.body.op e inp).run s).mem = mstep e s.mem w ∧ (∀ k, ((w.body.op e inp).run s).out k = s.out k ++ w.outK e k) ∧
    (∀ k, ((w.body.op e inp).run s).pos k = s.pos k + (w.innK e k).length) := by
  obtain ⟨b, out, inn⟩ := w
  cases b with
  | other op =>
    have hk : op.key = none := hw
    refine ⟨nokey_run_mem hk s, ?_, ?_⟩
    · intro k
      simp [CBody.op, MOp.run, hk, WIt.outK]
    · intro k
      simp [CBody.op, MOp.run, hk, WIt.innK]
  | comm k a d n =>
    obtain ⟨h1, h2⟩ := hw
    refine ⟨?_, ?_, ?_⟩
    · funext x
      rw [run_mem]
      simp only [mstep, CBody.op, commOp, MOp.posOf, Option.map_some, Option.getD_some]
      by_cases co : e.isOut k = true
      · simp only [co, Bool.true_and, decide_eq_true_eq, if_true]
        have hl := h2 co
        simp only at hl
        by_cases c : d ≤ x ∧ x < d + n * e.elemsize
        · rw [if_pos c]
          have hlt : x - d < inn.length := by omega
          have hv := List.getElem?_eq_getElem hlt
          rw [(writeMem_spec s.mem d inn x).1 (x - d) _ hv (by omega)]
          exact hi k (x - d) _ (by simp only [WIt.innK, co, and_self, if_true]; exact hv)
        · rw [if_neg c, (writeMem_spec s.mem d inn x).2 (by omega)]
      · simp [co]
    · intro k'
      simp only [CBody.op, commOp, MOp.run, WIt.outK, Option.some.injEq]
      by_cases c : k = k'
      · subst c
        rw [if_pos rfl]
        by_cases ci : e.isIn k = true
        · rw [if_pos ci, if_pos ⟨rfl, ci⟩]
          congr 1
          exact h1 ci
        · rw [if_neg ci, if_neg (by simp [ci])]
      · rw [if_neg c, if_neg (by simp [c]), List.append_nil]
    · intro k'
      simp only [CBody.op, commOp, MOp.run, WIt.innK, Option.some.injEq]
      by_cases c : k = k'
      · subst c
        rw [if_pos rfl]
        by_cases co : e.isOut k = true
        · rw [if_pos co, if_pos ⟨rfl, co⟩]
          congr 1
          exact (h2 co).symm
        · rw [if_neg co, if_neg (by simp [co])]
          rfl
      · rw [if_neg c, if_neg (by simp [c])]
        rfl

/-- Effect with streams which contain what the actions get. -/
theorem walk_run (e : CEnv) (inp : CKey → Nat → β) (l : List (WIt β)) : ∀ s : MSt CKey β, MWalk e s.mem l →
    (∀ k, ∀ i v, (l.flatMap (WIt.innK e k))[i]? = some v → inp k (s.pos k + i) = v) →
    (runOps (l.map (fun w => w.body.op e inp)) s).mem = mrun e s.mem l ∧
    (∀ k, (runOps (l.map (fun w => w.body.op e inp)) s).out k = s.out k ++ l.flatMap (WIt.outK e k)) ∧
    (∀ k, (runOps (l.map (fun w => w.body.op e inp)) s).pos k = s.pos k + (l.flatMap (WIt.innK e k)).length) := by
  induction l with
  | nil => intro s _ _; exact ⟨rfl, fun k => (List.append_nil _).symm, fun k => rfl⟩
  | cons w l ih =>
    intro s hw hi
    obtain ⟨h1, h2, h3⟩ := step_run e inp w s hw.1 (by
      intro k i v h
      refine hi k i v ?_
      rw [List.flatMap_cons, List.getElem?_append_left]
      · exact h
      · exact (List.getElem?_eq_some_iff.1 h).1)
    obtain ⟨j1, j2, j3⟩ := ih ((w.body.op e inp).run s) (by rw [h1]; exact hw.2) (by
      intro k i v h
      rw [h3, Nat.add_assoc]
      refine hi k _ v ?_
      rw [List.flatMap_cons, List.getElem?_append_right (by omega), Nat.add_sub_cancel_left]
      exact h)
    rw [List.map_cons, runOps_cons]
    refine ⟨?_, ?_, ?_⟩
    · rw [j1, h1]; rfl
    · intro k
      rw [j2, h2, List.flatMap_cons, List.append_assoc]
    · intro k
      rw [j3, h3, List.flatMap_cons, List.length_append, Nat.add_assoc]

theorem mwalk_append (e : CEnv) (a b : List (WIt β)) : ∀ m, MWalk e m (a ++ b) ↔ MWalk e m a ∧ MWalk e (mrun e m a) b := by
  induction a with
  | nil => intro m; simp [MWalk, mrun]
  | cons w a ih =>
    intro m
    rw [List.cons_append]
    simp only [MWalk, ih, mrun, List.foldl_cons]
    exact and_assoc.symm

theorem mrun_append (e : CEnv) (a b : List (WIt β)) (m : Nat → β) : mrun e m (a ++ b) = mrun e (mrun e m a) b := by
  simp [mrun, List.foldl_append]

theorem mstep_frame (e : CEnv) {m : Nat → β} {w : WIt β} (hw : wexp e m w) {x : Nat} (h : wr e w.body x = false) : mstep e m w x = m x := by
  obtain ⟨b, out, inn⟩ := w
  cases b with
  | other op =>
    have h : op.W x = false := h
    simp only [mstep]
    rw [run_mem, if_neg (by simp [h])]
    rfl
  | comm k s d n =>
    simp only [mstep]
    by_cases co : e.isOut k = true
    · rw [if_pos co]
      have hl := hw.2 co
      simp only at hl
      simp only [wr, co, Bool.true_and, decide_eq_false_iff_not] at h
      exact (writeMem_spec m d inn x).2 (by rw [hl]; exact h)
    · rw [if_neg co]

theorem mrun_frame (e : CEnv) (l : List (WIt β)) {x : Nat} : ∀ m : Nat → β, MWalk e m l → (∀ w ∈ l, wr e w.body x = false) →
    mrun e m l x = m x := by
  induction l with
  | nil => intro m _ _; rfl
  | cons w l ih =>
    intro m hw h
    show mrun e (mstep e m w) l x = m x
    rw [ih _ hw.2 (fun w' hw' => h w' (List.mem_cons_of_mem _ hw')), mstep_frame e hw.1 (h w List.mem_cons_self)]

/-- An action only depends on the cells it uses. -/
theorem mstep_local (e : CEnv) (Z : Nat → Prop) {m m' : Nat → β} (w : WIt β) (h : ∀ x, Z x → m x = m' x)
    (hz : ∀ x, rd e w.body x ∨ wr e w.body x = true → Z x) :
    (wexp e m' w → wexp e m w) ∧ ∀ x, Z x → mstep e m w x = mstep e m' w x := by
  obtain ⟨b, out, inn⟩ := w
  cases b with
  | other op =>
    refine ⟨fun h => h, fun x hx => ?_⟩
    simp only [mstep]
    rw [run_mem, run_mem]
    by_cases c : op.W x = true
    · rw [if_pos c, if_pos c]
      have : op.posOf (MSt.ofMem m) = op.posOf (MSt.ofMem m') := rfl
      rw [this]
      exact op.val_local _ _ _ _ (fun y hy => h y (hz y (Or.inl hy))) c
    · rw [if_neg c, if_neg c]
      exact h x hx
  | comm k s d n =>
    constructor
    · rintro ⟨h1, h2⟩
      refine ⟨fun ci => ?_, h2⟩
      rw [← h1 ci]
      apply readMem_congr
      intro t ht
      exact h _ (hz _ (Or.inl ⟨ci, by omega, by omega⟩))
    · intro x hx
      simp only [mstep]
      by_cases co : e.isOut k = true
      · rw [if_pos co, if_pos co]
        unfold writeMem
        rw [h x hx]
      · rw [if_neg co, if_neg co]
        exact h x hx

section
variable {τ : Type} [DecidableEq τ]

/-- Actions of one part. -/
def part (t : τ) (L : List (τ × WIt β)) : List (WIt β) := (L.filter (fun x => x.1 = t)).map (·.2)

theorem part_cons (t : τ) (x : τ × WIt β) (L : List (τ × WIt β)) :
    part t (x :: L) = if x.1 = t then x.2 :: part t L else part t L := by
  unfold part
  by_cases c : x.1 = t
  · rw [List.filter_cons_of_pos (by simpa using c), if_pos c]; rfl
  · rw [List.filter_cons_of_neg (by simpa using c), if_neg c]

/-- Parts which do not write cells of each other can be considered separately. -/
theorem walk_parts (e : CEnv) (Z : τ → Nat → Prop) (L : List (τ × WIt β))
    (h1 : ∀ y ∈ L, ∀ x, rd e y.2.body x ∨ wr e y.2.body x = true → Z y.1 x)
    (h2 : ∀ y ∈ L, ∀ t, t ≠ y.1 → ∀ x, wr e y.2.body x = true → ¬ Z t x) :
    ∀ (m : Nat → β) (mt : τ → Nat → β), (∀ t x, Z t x → m x = mt t x) → (∀ t, MWalk e (mt t) (part t L)) →
      MWalk e m (L.map (·.2)) ∧ ∀ t x, Z t x → mrun e m (L.map (·.2)) x = mrun e (mt t) (part t L) x := by
  induction L with
  | nil => intro m mt hm _; exact ⟨trivial, hm⟩
  | cons y L ih =>
    intro m mt hm hw
    have hy := h1 y List.mem_cons_self
    have hwy := hw y.1
    rw [part_cons, if_pos rfl] at hwy
    obtain ⟨l1, l2⟩ := mstep_local e (Z y.1) y.2 (hm y.1) hy
    have hx := l1 hwy.1
    obtain ⟨i1, i2⟩ := ih (fun z hz => h1 z (List.mem_cons_of_mem _ hz)) (fun z hz => h2 z (List.mem_cons_of_mem _ hz))
      (mstep e m y.2) (fun t => if t = y.1 then mstep e (mt t) y.2 else mt t) (by
        intro t x hz
        by_cases c : t = y.1
        · subst c
          simp only [if_true]
          exact l2 x hz
        · simp only [if_neg c]
          rw [mstep_frame e hx]
          · exact hm t x hz
          · rw [Bool.eq_false_iff]
            intro hwr
            exact h2 y List.mem_cons_self t c x hwr hz) (by
        intro t
        by_cases c : t = y.1
        · subst c
          simp only [if_true]
          exact hwy.2
        · simp only [if_neg c]
          have := hw t
          rw [part_cons, if_neg (fun h => c h.symm)] at this
          exact this)
    refine ⟨⟨hx, i1⟩, ?_⟩
    intro t x hz
    show mrun e (mstep e m y.2) (L.map (·.2)) x = _
    rw [i2 t x hz, part_cons]
    by_cases c : t = y.1
    · subst c
      simp only [if_true]
      rfl
    · simp only [if_neg c]
      rw [if_neg (fun h => c h.symm)]

end

end Laik.Mp
