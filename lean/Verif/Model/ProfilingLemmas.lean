import Verif.Spec.Profiling
/-!
# Lemmas for profiling
-/

namespace Laik.Pf

/-- State and past calls. -/
structure Inv (h : List Op) (x : St) : Prop where
  cur : x.cur = curr h
  dead : ∀ i, i ∈ x.dead ↔ Gone h i
  prof : ∀ i, (x.ctrl i).doProf = true ↔ x.cur = some i
  total : ∀ i, (x.ctrl i).timeTotal = 0
  file : ∀ i f, (x.ctrl i).file = some f → f ∈ x.isOpen
  differ : ∀ i j f, (x.ctrl i).file = some f → (x.ctrl j).file = some f → i = j
  nodup : x.isOpen.Nodup
  bound : ∀ f ∈ x.isOpen, f < x.opened

theorem inv_nil : Inv [] {} where
  cur := rfl
  dead := fun i => by simp [Gone]
  prof := fun i => by simp
  total := fun i => rfl
  file := fun i f h => by simp at h
  differ := fun i j f h => by simp at h
  nodup := List.nodup_nil
  bound := fun f h => by cases h

theorem get_ok {h : List Op} {x : St} (v : Inv h x) {i : Nat} {c : Ctrl} : x.get i = .ok c ↔ ¬ Gone h i ∧ c = x.ctrl i := by
  unfold St.get
  by_cases hd : i ∈ x.dead
  · rw [if_pos hd]
    simp [(v.dead i).1 hd]
  · rw [if_neg hd]
    have : ¬ Gone h i := fun hg => hd ((v.dead i).2 hg)
    simp [this, eq_comm]

theorem set_same (x : St) (i : Nat) (c : Ctrl) : (x.set i c).ctrl i = c := by simp [St.set]

theorem set_other (x : St) {i j : Nat} (c : Ctrl) (h : j ≠ i) : (x.set i c).ctrl j = x.ctrl j := by simp [St.set, h]

/-- Changes of times keep the invariant. -/
theorem inv_set {h : List Op} {x : St} (v : Inv h x) (i : Nat) (c : Ctrl) (h1 : c.doProf = (x.ctrl i).doProf) (h2 : c.timeTotal = 0)
    (h3 : c.file = (x.ctrl i).file) : Inv h (x.set i c) := by
  have e : ∀ j, ((x.set i c).ctrl j).doProf = (x.ctrl j).doProf ∧ ((x.set i c).ctrl j).timeTotal = 0 ∧
      ((x.set i c).ctrl j).file = (x.ctrl j).file := by
    intro j
    by_cases hj : j = i
    · subst hj; rw [set_same]; exact ⟨h1, h2, h3⟩
    · rw [set_other x c hj]; exact ⟨rfl, v.total j, rfl⟩
  constructor
  · exact v.cur
  · exact v.dead
  · intro j; rw [(e j).1]; exact v.prof j
  · intro j; exact (e j).2.1
  · intro j f; rw [(e j).2.2]; exact v.file j f
  · intro j k f; rw [(e j).2.2, (e k).2.2]; exact v.differ j k f
  · exact v.nodup
  · exact v.bound

/-- Past calls matter for `curr` and `Gone` only. -/
theorem inv_hist {h h' : List Op} {x : St} (v : Inv h x) (h1 : curr h' = curr h) (h2 : ∀ i, Gone h' i ↔ Gone h i) : Inv h' x :=
  ⟨by rw [h1]; exact v.cur, fun i => by rw [h2]; exact v.dead i, v.prof, v.total, v.file, v.differ, v.nodup, v.bound⟩

theorem bind_ok {α β : Type} {a : Except Fault α} {f : α → Except Fault β} {y : β} : a.bind f = .ok y ↔ ∃ c, a = .ok c ∧ f c = .ok y := by
  cases a with
  | error e => simp [Except.bind]
  | ok c => simp [Except.bind]

/-- No instance is measured after `leave`. -/
theorem leave_ok {h : List Op} {x y : St} (v : Inv h x) : x.leave = .ok y ↔ CurrLive h ∧
    ((x.cur = none ∧ y = x) ∨ ∃ j, x.cur = some j ∧ y = x.set j { x.ctrl j with doProf := false }) := by
  unfold St.leave CurrLive
  rw [← v.cur]
  cases hc : x.cur with
  | none => simp [eq_comm]
  | some j =>
    show (x.get j).bind _ = _ ↔ _
    rw [bind_ok]
    constructor
    · rintro ⟨c, h1, h2⟩
      obtain ⟨hn, rfl⟩ := (get_ok v).1 h1
      exact ⟨fun i hi => by cases hi; exact hn, Or.inr ⟨j, rfl, by cases h2; rfl⟩⟩
    · rintro ⟨h1, (⟨h2, _⟩ | ⟨k, h2, h3⟩)⟩
      · cases h2
      · cases h2
        exact ⟨_, (get_ok v).2 ⟨h1 j rfl, rfl⟩, by rw [h3]; rfl⟩

/-- State after `leave`: as before, but no instance is measured. -/
structure Left (h : List Op) (x y : St) : Prop where
  dead : y.dead = x.dead
  opened : y.opened = x.opened
  isOpen : y.isOpen = x.isOpen
  prof : ∀ i, (y.ctrl i).doProf = false
  rest : ∀ i, { y.ctrl i with doProf := false } = { x.ctrl i with doProf := false }

theorem leave_left {h : List Op} {x y : St} (v : Inv h x) (hy : x.leave = .ok y) : Left h x y := by
  rcases ((leave_ok v).1 hy).2 with ⟨h1, rfl⟩ | ⟨j, h1, rfl⟩
  · refine ⟨rfl, rfl, rfl, fun i => ?_, fun i => rfl⟩
    have := v.prof i
    rw [h1] at this
    cases hp : (y.ctrl i).doProf with
    | false => rfl
    | true => exact absurd (this.1 hp) (by simp)
  · refine ⟨rfl, rfl, rfl, fun i => ?_, fun i => ?_⟩
    · by_cases hi : i = j
      · subst hi; rw [set_same]
      · rw [set_other _ _ hi]
        have := v.prof i
        rw [h1] at this
        cases hp : (x.ctrl i).doProf with
        | false => rfl
        | true => exact absurd (this.1 hp) (by simpa using fun e => hi e.symm)
    · by_cases hi : i = j
      · subst hi; rw [set_same]
      · rw [set_other _ _ hi]

theorem Left.file {h : List Op} {x y : St} (l : Left h x y) (i : Nat) : (y.ctrl i).file = (x.ctrl i).file := by
  have := congrArg Ctrl.file (l.rest i); simpa using this

theorem Left.total {h : List Op} {x y : St} (l : Left h x y) (i : Nat) : (y.ctrl i).timeTotal = (x.ctrl i).timeTotal := by
  have := congrArg Ctrl.timeTotal (l.rest i); simpa using this

theorem Left.get {h : List Op} {x y : St} (v : Inv h x) (l : Left h x y) {i : Nat} {c : Ctrl} : y.get i = .ok c ↔ ¬ Gone h i ∧ c = y.ctrl i := by
  unfold St.get
  rw [l.dead]
  by_cases hd : i ∈ x.dead
  · rw [if_pos hd]
    simp [(v.dead i).1 hd]
  · rw [if_neg hd]
    have : ¬ Gone h i := fun hg => hd ((v.dead i).2 hg)
    simp [this, eq_comm]

theorem curr_test {a i : Option Nat} : (a.isSome ∧ a = i) ↔ ¬ (i = none ∨ i ≠ a) := by
  cases a <;> cases i <;> simp [eq_comm]

theorem isSome_none : ¬ ((none : Option Nat).isSome = true ∧ (none : Option Nat) = none) := by simp

theorem enable_inv {h : List Op} {x y : St} (v : Inv h x) (i : Option Nat) (hy : enable x i = .ok y) : Inv (.enable i :: h) y := by
  unfold enable at hy
  have hg : ∀ j, Gone (.enable i :: h) j ↔ Gone h j := fun j => by simp [Gone]
  by_cases hc : x.cur.isSome ∧ x.cur = i
  · rw [if_pos hc] at hy
    cases hy
    exact inv_hist v (by show i = _; rw [← hc.2]; exact v.cur) hg
  · rw [if_neg hc] at hy
    obtain ⟨z, hz, h2⟩ := bind_ok.1 hy
    have l := leave_left v hz
    cases i with
    | none =>
      cases h2
      constructor
      · rfl
      · intro j; rw [hg]; show j ∈ z.dead ↔ _; rw [l.dead]; exact v.dead j
      · intro j; simp [l.prof j]
      · intro j; show (z.ctrl j).timeTotal = 0; rw [l.total]; exact v.total j
      · intro j f hf; show f ∈ z.isOpen; rw [l.isOpen]; exact v.file j f (by rw [← l.file]; exact hf)
      · intro j k f h1 h2; exact v.differ j k f (by rw [← l.file]; exact h1) (by rw [← l.file]; exact h2)
      · show z.isOpen.Nodup; rw [l.isOpen]; exact v.nodup
      · intro f hf; show f < z.opened; rw [l.opened]; exact v.bound f (by rw [← l.isOpen]; exact hf)
    | some a =>
      obtain ⟨c, hc1, h3⟩ := bind_ok.1 h2
      obtain ⟨_, rfl⟩ := (l.get v).1 hc1
      cases h3
      have ef : ∀ j, ((z.set a { z.ctrl a with doProf := true, timeBackend := 0, timeTotal := 0, timeUser := 0 }).ctrl j).file = (x.ctrl j).file := by
        intro j
        by_cases hj : j = a
        · subst hj; rw [set_same]; exact l.file j
        · rw [set_other _ _ hj]; exact l.file j
      constructor
      · rfl
      · intro j; rw [hg]; show j ∈ z.dead ↔ _; rw [l.dead]; exact v.dead j
      · intro j
        by_cases hj : j = a
        · subst hj
          show ((z.set j _).ctrl j).doProf = true ↔ _
          rw [set_same]; simp
        · show ((z.set a _).ctrl j).doProf = true ↔ some a = some j
          rw [set_other _ _ hj, l.prof j]
          have hne : a ≠ j := fun e => hj e.symm
          simp [hne]
      · intro j
        show ((z.set a _).ctrl j).timeTotal = 0
        by_cases hj : j = a
        · subst hj; rw [set_same]
        · rw [set_other _ _ hj, l.total]; exact v.total j
      · intro j f hf; show f ∈ z.isOpen; rw [l.isOpen]; exact v.file j f (by rw [← ef]; exact hf)
      · intro j k f h1 h2; exact v.differ j k f (by rw [← ef]; exact h1) (by rw [← ef]; exact h2)
      · show z.isOpen.Nodup; rw [l.isOpen]; exact v.nodup
      · intro f hf; show f < z.opened; rw [l.opened]; exact v.bound f (by rw [← l.isOpen]; exact hf)

theorem enable_ok {h : List Op} {x : St} (v : Inv h x) (i : Option Nat) : (∃ y, enable x i = .ok y) ↔ SafeOp h (.enable i) := by
  unfold enable SafeOp
  rw [v.cur]
  by_cases hc : (curr h).isSome ∧ curr h = i
  · rw [if_pos hc]
    exact ⟨fun _ hn => absurd hn (curr_test.1 hc), fun _ => ⟨_, rfl⟩⟩
  · rw [if_neg hc]
    have hn := Classical.not_not.1 (fun e => hc (curr_test.2 e))
    constructor
    · rintro ⟨y, hy⟩ _
      obtain ⟨z, hz, h2⟩ := bind_ok.1 hy
      refine ⟨((leave_ok v).1 hz).1, fun j hj => ?_⟩
      subst hj
      obtain ⟨c, hc1, _⟩ := bind_ok.1 h2
      exact (((leave_left v hz).get v).1 hc1).1
    · intro hs
      obtain ⟨h1, h2⟩ := hs hn
      have : ∃ z, x.leave = .ok z := by
        cases hx : x.cur with
        | none => exact ⟨_, (leave_ok v).2 ⟨h1, Or.inl ⟨hx, rfl⟩⟩⟩
        | some j => exact ⟨_, (leave_ok v).2 ⟨h1, Or.inr ⟨j, hx, rfl⟩⟩⟩
      obtain ⟨z, hz⟩ := this
      cases i with
      | none => exact ⟨_, bind_ok.2 ⟨z, hz, rfl⟩⟩
      | some a => exact ⟨_, bind_ok.2 ⟨z, hz, bind_ok.2 ⟨_, ((leave_left v hz).get v).2 ⟨h2 a rfl, rfl⟩, rfl⟩⟩⟩

theorem enableFile_inv {h : List Op} {x y : St} (v : Inv h x) (i : Option Nat) (ok : Bool) (hy : enableFile x i ok = .ok y) :
    Inv (.enableFile i ok :: h) y := by
  unfold enableFile at hy
  have hg : ∀ j, Gone (.enableFile i ok :: h) j ↔ Gone h j := fun j => by simp [Gone]
  by_cases hc : x.cur.isSome ∧ x.cur = i
  · rw [if_pos hc] at hy
    cases hy
    exact inv_hist v (by show i = _; rw [← hc.2]; exact v.cur) hg
  · rw [if_neg hc] at hy
    obtain ⟨z, hz, h2⟩ := bind_ok.1 hy
    have l := leave_left v hz
    cases i with
    | none =>
      cases h2
      constructor
      · rfl
      · intro j; rw [hg]; show j ∈ z.dead ↔ _; rw [l.dead]; exact v.dead j
      · intro j; simp [l.prof j]
      · intro j; show (z.ctrl j).timeTotal = 0; rw [l.total]; exact v.total j
      · intro j f hf; show f ∈ z.isOpen; rw [l.isOpen]; exact v.file j f (by rw [← l.file]; exact hf)
      · intro j k f h1 h2; exact v.differ j k f (by rw [← l.file]; exact h1) (by rw [← l.file]; exact h2)
      · show z.isOpen.Nodup; rw [l.isOpen]; exact v.nodup
      · intro f hf; show f < z.opened; rw [l.opened]; exact v.bound f (by rw [← l.isOpen]; exact hf)
    | some a =>
      obtain ⟨c, hc1, h3⟩ := bind_ok.1 h2
      obtain ⟨_, rfl⟩ := (l.get v).1 hc1
      cases ok with
      | false => exact absurd h3 (by simp)
      | true =>
        cases h3
        have ea : ∀ j, ((St.set { z with cur := some a, opened := z.opened + 1, isOpen := z.opened :: z.isOpen } a
            { z.ctrl a with doProf := true, timeBackend := 0, timeTotal := 0, file := some z.opened }).ctrl j).file =
            if j = a then some x.opened else (x.ctrl j).file := by
          intro j
          by_cases hj : j = a
          · subst hj; rw [set_same, if_pos rfl, l.opened]
          · rw [set_other _ _ hj, if_neg hj]; exact l.file j
        have hb : ∀ j f, (x.ctrl j).file = some f → f < x.opened := fun j f hf => v.bound f (v.file j f hf)
        constructor
        · rfl
        · intro j; rw [hg]; show j ∈ z.dead ↔ _; rw [l.dead]; exact v.dead j
        · intro j
          by_cases hj : j = a
          · subst hj
            rw [set_same]
            show true = true ↔ some j = some j
            simp
          · rw [set_other _ _ hj]
            show (z.ctrl j).doProf = true ↔ some a = some j
            rw [l.prof j]
            have hne : a ≠ j := fun e => hj e.symm
            simp [hne]
        · intro j
          by_cases hj : j = a
          · subst hj; rw [set_same]
          · rw [set_other _ _ hj]; show (z.ctrl j).timeTotal = 0; rw [l.total]; exact v.total j
        · intro j f hf
          rw [ea] at hf
          show f ∈ z.opened :: z.isOpen
          rw [l.opened, l.isOpen]
          by_cases hj : j = a
          · rw [if_pos hj] at hf; cases hf; exact List.mem_cons_self
          · rw [if_neg hj] at hf; exact List.mem_cons_of_mem _ (v.file j f hf)
        · intro j k f h1 h2
          rw [ea] at h1 h2
          by_cases hj : j = a
          · by_cases hk : k = a
            · rw [hj, hk]
            · rw [if_pos hj] at h1
              rw [if_neg hk] at h2
              cases h1
              exact absurd (hb k _ h2) (Nat.lt_irrefl _)
          · rw [if_neg hj] at h1
            by_cases hk : k = a
            · rw [if_pos hk] at h2
              cases h2
              exact absurd (hb j _ h1) (Nat.lt_irrefl _)
            · rw [if_neg hk] at h2
              exact v.differ j k f h1 h2
        · show (z.opened :: z.isOpen).Nodup
          rw [l.opened, l.isOpen]
          exact List.nodup_cons.2 ⟨fun hm => Nat.lt_irrefl _ (v.bound _ hm), v.nodup⟩
        · intro f hf
          replace hf : f ∈ z.opened :: z.isOpen := hf
          show f < z.opened + 1
          rw [l.opened, l.isOpen] at *
          rcases List.mem_cons.1 hf with rfl | hf
          · exact Nat.lt_succ_self _
          · exact Nat.lt_succ_of_lt (v.bound f hf)

theorem enableFile_ok {h : List Op} {x : St} (v : Inv h x) (i : Option Nat) (ok : Bool) :
    (∃ y, enableFile x i ok = .ok y) ↔ SafeOp h (.enableFile i ok) := by
  unfold enableFile SafeOp
  rw [v.cur]
  by_cases hc : (curr h).isSome ∧ curr h = i
  · rw [if_pos hc]
    exact ⟨fun _ hn => absurd hn (curr_test.1 hc), fun _ => ⟨_, rfl⟩⟩
  · rw [if_neg hc]
    have hn := Classical.not_not.1 (fun e => hc (curr_test.2 e))
    constructor
    · rintro ⟨y, hy⟩ _
      obtain ⟨z, hz, h2⟩ := bind_ok.1 hy
      refine ⟨((leave_ok v).1 hz).1, fun j hj => ?_⟩
      subst hj
      obtain ⟨c, hc1, h3⟩ := bind_ok.1 h2
      refine ⟨(((leave_left v hz).get v).1 hc1).1, ?_⟩
      cases ok with
      | true => rfl
      | false => exact absurd h3 (by simp)
    · intro hs
      obtain ⟨h1, h2⟩ := hs hn
      have : ∃ z, x.leave = .ok z := by
        cases hx : x.cur with
        | none => exact ⟨_, (leave_ok v).2 ⟨h1, Or.inl ⟨hx, rfl⟩⟩⟩
        | some j => exact ⟨_, (leave_ok v).2 ⟨h1, Or.inr ⟨j, hx, rfl⟩⟩⟩
      obtain ⟨z, hz⟩ := this
      cases i with
      | none => exact ⟨_, bind_ok.2 ⟨z, hz, rfl⟩⟩
      | some a =>
        obtain ⟨h3, rfl⟩ := h2 a rfl
        exact ⟨_, bind_ok.2 ⟨z, hz, bind_ok.2 ⟨_, ((leave_left v hz).get v).2 ⟨h3, rfl⟩, rfl⟩⟩⟩

theorem write_ok {h : List Op} {x : St} (v : Inv h x) {i f : Nat} (hf : (x.ctrl i).file = some f) : x.write (some f) = .ok () := by
  unfold St.write
  exact if_pos (v.file i f hf)

theorem write_ok' {h : List Op} {x : St} (v : Inv h x) {i f : Nat} (hf : (x.ctrl i).file = some f) {u : Unit} :
    x.write (some f) = .ok u := write_ok v hf

/-- Calls which access the controller of the current instance `i` only. -/
theorem cur_live {h : List Op} {x : St} (v : Inv h x) : CurrLive h ↔ ∀ i, x.cur = some i → ∃ c, x.get i = .ok c := by
  unfold CurrLive
  rw [← v.cur]
  constructor
  · intro hl i hi
    exact ⟨_, (get_ok v).2 ⟨hl i hi, rfl⟩⟩
  · intro hl i hi
    obtain ⟨c, hc⟩ := hl i hi
    exact ((get_ok v).1 hc).1

theorem closeFile_inv {h : List Op} {x y : St} (v : Inv h x) (i : Nat) (hy : closeFile x i = .ok y) :
    Inv h y ∧ (y.ctrl i).file = none ∧ y.isOpen = (match (x.ctrl i).file with | none => x.isOpen | some f => x.isOpen.erase f) ∧
    (∀ j, j ≠ i → y.ctrl j = x.ctrl j) ∧ y.ctrl i = { x.ctrl i with file := none } ∧ y.dead = x.dead ∧ y.cur = x.cur := by
  obtain ⟨c, hc, h2⟩ := bind_ok.1 hy
  obtain ⟨_, rfl⟩ := (get_ok v).1 hc
  cases hf : (x.ctrl i).file with
  | none =>
    simp only [hf] at h2
    cases h2
    refine ⟨v, hf, rfl, fun _ _ => rfl, ?_, rfl, rfl⟩
    conv => lhs; rw [show x.ctrl i = { x.ctrl i with file := (x.ctrl i).file } from rfl, hf]
  | some f =>
    simp only [hf] at h2
    obtain ⟨_, _, h3⟩ := bind_ok.1 h2
    cases h3
    have e : ∀ j, ((St.set { x with isOpen := x.isOpen.erase f } i { x.ctrl i with file := none }).ctrl j).file =
        if j = i then none else (x.ctrl j).file := by
      intro j
      by_cases hj : j = i
      · subst hj; rw [set_same, if_pos rfl]
      · rw [set_other _ _ hj, if_neg hj]
    refine ⟨?_, by rw [e, if_pos rfl], rfl, fun j hj => set_other _ _ hj, set_same _ _ _, rfl, rfl⟩
    constructor
    · exact v.cur
    · exact v.dead
    · intro j
      by_cases hj : j = i
      · subst hj; rw [set_same]; exact v.prof j
      · rw [set_other _ _ hj]; exact v.prof j
    · intro j
      by_cases hj : j = i
      · subst hj; rw [set_same]; exact v.total j
      · rw [set_other _ _ hj]; exact v.total j
    · intro j g hg
      rw [e] at hg
      by_cases hj : j = i
      · rw [if_pos hj] at hg; cases hg
      · rw [if_neg hj] at hg
        show g ∈ x.isOpen.erase f
        refine (v.nodup.mem_erase_iff).2 ⟨?_, v.file j g hg⟩
        intro e1
        rw [e1] at hg
        exact hj (v.differ j i f hg hf)
    · intro j k g h1 h2
      rw [e] at h1 h2
      by_cases hj : j = i
      · rw [if_pos hj] at h1; cases h1
      · by_cases hk : k = i
        · rw [if_pos hk] at h2; cases h2
        · rw [if_neg hj] at h1; rw [if_neg hk] at h2; exact v.differ j k g h1 h2
    · exact v.nodup.sublist List.erase_sublist
    · intro g hg
      exact v.bound g (List.mem_of_mem_erase hg)

theorem closeFile_ok {h : List Op} {x : St} (v : Inv h x) (i : Nat) : (∃ y, closeFile x i = .ok y) ↔ ¬ Gone h i := by
  constructor
  · rintro ⟨y, hy⟩
    obtain ⟨c, hc, _⟩ := bind_ok.1 hy
    exact ((get_ok v).1 hc).1
  · intro hg
    have h1 : x.get i = .ok (x.ctrl i) := (get_ok v).2 ⟨hg, rfl⟩
    cases hf : (x.ctrl i).file with
    | none => exact ⟨_, bind_ok.2 ⟨_, h1, by simp only [hf]; rfl⟩⟩
    | some f => exact ⟨_, bind_ok.2 ⟨_, h1, by simp only [hf]; exact bind_ok.2 ⟨(), write_ok v hf, rfl⟩⟩⟩

/-- Each call keeps the invariant. -/
theorem step_inv {h : List Op} {x y : St} (v : Inv h x) (o : Op) (hy : step x o = .ok y) : Inv (o :: h) y := by
  cases o with
  | enable i => exact enable_inv v i hy
  | enableFile i ok => exact enableFile_inv v i ok hy
  | reset i =>
    refine inv_hist (h := h) ?_ rfl (fun j => by simp [Gone])
    simp only [step, reset] at hy
    by_cases hc : x.cur = some i
    · rw [if_pos hc] at hy
      obtain ⟨c, hg, h2⟩ := bind_ok.1 hy
      obtain ⟨_, rfl⟩ := (get_ok v).1 hg
      split at h2
      · cases h2; exact inv_set v _ _ rfl rfl rfl
      · cases h2; exact v
    · rw [if_neg hc] at hy; cases hy; exact v
  | userStart i now =>
    refine inv_hist (h := h) ?_ rfl (fun j => by simp [Gone])
    simp only [step, userStart] at hy
    by_cases hc : x.cur = some i
    · rw [if_pos hc] at hy
      obtain ⟨c, hg, h2⟩ := bind_ok.1 hy
      obtain ⟨_, rfl⟩ := (get_ok v).1 hg
      split at h2
      · cases h2; exact inv_set v _ _ rfl (v.total i) rfl
      · cases h2; exact v
    · rw [if_neg hc] at hy; cases hy; exact v
  | userStop i now =>
    refine inv_hist (h := h) ?_ rfl (fun j => by simp [Gone])
    simp only [step, userStop] at hy
    by_cases hc : x.cur = some i
    · rw [if_pos hc] at hy
      obtain ⟨c, hg, h2⟩ := bind_ok.1 hy
      obtain ⟨_, rfl⟩ := (get_ok v).1 hg
      split at h2
      · cases h2; exact inv_set v _ _ rfl (v.total i) rfl
      · cases h2; exact v
    · rw [if_neg hc] at hy; cases hy; exact v
  | exec i t1 t2 =>
    refine inv_hist (h := h) ?_ rfl (fun j => by simp [Gone])
    obtain ⟨c, hg, h2⟩ := bind_ok.1 hy
    obtain ⟨_, rfl⟩ := (get_ok v).1 hg
    split at h2
    · cases h2; exact inv_set v _ _ rfl (v.total i) rfl
    · cases h2; exact v
  | getTime =>
    refine inv_hist (h := h) ?_ rfl (fun j => by simp [Gone])
    simp only [step] at hy
    cases ht : times x with
    | error e => rw [ht] at hy; cases hy
    | ok t => rw [ht] at hy; cases hy; exact v
  | writeout =>
    refine inv_hist (h := h) ?_ rfl (fun j => by simp [Gone])
    simp only [step, writeout] at hy
    cases hc : x.cur with
    | none => rw [hc] at hy; cases hy; exact v
    | some i =>
      rw [hc] at hy
      obtain ⟨c, hg, h2⟩ := bind_ok.1 hy
      cases hf : c.file with
      | none => simp only [hf] at h2; cases h2; exact v
      | some f =>
        simp only [hf] at h2
        obtain ⟨_, _, h3⟩ := bind_ok.1 h2
        cases h3
        exact ⟨hc.symm.trans v.cur, v.dead, fun j => (v.prof j).trans (by rw [hc]), v.total, v.file, v.differ, v.nodup, v.bound⟩
  | closeFile i => exact inv_hist (closeFile_inv v i hy).1 rfl (fun j => by simp [Gone])
  | printf =>
    refine inv_hist (h := h) ?_ rfl (fun j => by simp [Gone])
    simp only [step, printf] at hy
    cases hc : x.cur with
    | none => rw [hc] at hy; cases hy
    | some i =>
      rw [hc] at hy
      obtain ⟨c, hg, h2⟩ := bind_ok.1 hy
      cases hf : c.file with
      | none => simp only [hf] at h2; cases h2; exact v
      | some f =>
        simp only [hf] at h2
        obtain ⟨_, _, h3⟩ := bind_ok.1 h2
        cases h3
        exact v
  | finalize i =>
    obtain ⟨z, hz, h2⟩ := bind_ok.1 hy
    cases h2
    have w := (closeFile_inv v i hz).1
    refine ⟨w.cur, fun j => ?_, w.prof, w.total, w.file, w.differ, w.nodup, w.bound⟩
    show j ∈ i :: z.dead ↔ _
    rw [List.mem_cons, w.dead]
    simp [Gone]

/-- Which calls are without fault. -/
theorem step_ok {h : List Op} {x : St} (v : Inv h x) (o : Op) : (∃ y, step x o = .ok y) ↔ SafeOp h o := by
  have one : ∀ (i : Nat) (f : Ctrl → Except Fault St), (∀ c, c = x.ctrl i → ∃ y, f c = .ok y) →
      ((∃ y, (x.get i).bind f = .ok y) ↔ ¬ Gone h i) := by
    intro i f hf
    constructor
    · rintro ⟨y, hy⟩
      obtain ⟨c, hc, _⟩ := bind_ok.1 hy
      exact ((get_ok v).1 hc).1
    · intro hg
      obtain ⟨y, hy⟩ := hf _ rfl
      exact ⟨y, bind_ok.2 ⟨_, (get_ok v).2 ⟨hg, rfl⟩, hy⟩⟩
  have cond : ∀ (i : Nat) (f : Ctrl → Except Fault St), (∀ c, c = x.ctrl i → ∃ y, f c = .ok y) →
      ((∃ y, (if x.cur = some i then (x.get i).bind f else .ok x) = .ok y) ↔ (curr h = some i → ¬ Gone h i)) := by
    intro i f hf
    rw [v.cur]
    by_cases hc : curr h = some i
    · rw [if_pos hc, one i f hf]
      exact ⟨fun a _ => a, fun a => a hc⟩
    · rw [if_neg hc]
      exact ⟨fun _ a => absurd a hc, fun _ => ⟨_, rfl⟩⟩
  have live : ∀ i, x.cur = some i → (¬ Gone h i ↔ CurrLive h) := by
    intro i hi
    unfold CurrLive
    rw [← v.cur, hi]
    exact ⟨fun a j hj => by cases hj; exact a, fun a => a i rfl⟩
  have none_live : x.cur = none → CurrLive h := by
    intro hn i hi
    rw [← v.cur, hn] at hi
    cases hi
  cases o with
  | enable i => exact enable_ok v i
  | enableFile i ok => exact enableFile_ok v i ok
  | reset i => exact cond i _ (fun c _ => by split <;> exact ⟨_, rfl⟩)
  | userStart i now => exact cond i _ (fun c _ => by split <;> exact ⟨_, rfl⟩)
  | userStop i now => exact cond i _ (fun c _ => by split <;> exact ⟨_, rfl⟩)
  | exec i t1 t2 => exact one i _ (fun c _ => by split <;> exact ⟨_, rfl⟩)
  | getTime =>
    simp only [step, times, SafeOp]
    cases hc : x.cur with
    | none => exact ⟨fun _ => none_live hc, fun _ => ⟨_, rfl⟩⟩
    | some i =>
      rw [← live i hc]
      constructor
      · rintro ⟨y, hy⟩
        cases hg : x.get i with
        | error e => simp only [hg] at hy; cases hy
        | ok c => exact ((get_ok v).1 hg).1
      · intro hg
        have : x.get i = .ok (x.ctrl i) := (get_ok v).2 ⟨hg, rfl⟩
        simp only [this]
        exact ⟨_, rfl⟩
  | writeout =>
    simp only [step, writeout, SafeOp]
    cases hc : x.cur with
    | none => exact ⟨fun _ => none_live hc, fun _ => ⟨_, rfl⟩⟩
    | some i =>
      rw [← live i hc]
      refine one i _ ?_
      rintro c rfl
      cases hf : (x.ctrl i).file with
      | none => exact ⟨_, rfl⟩
      | some f => exact ⟨_, bind_ok.2 ⟨(), write_ok v hf, rfl⟩⟩
  | closeFile i => exact closeFile_ok v i
  | printf =>
    simp only [step, printf, SafeOp]
    cases hc : x.cur with
    | none =>
      constructor
      · rintro ⟨y, hy⟩; cases hy
      · rintro ⟨_, hn⟩; exact absurd (by rw [← v.cur]; exact hc) hn
    | some i =>
      have hn : curr h ≠ none := by rw [← v.cur, hc]; simp
      rw [← live i hc]
      refine Iff.trans (one i _ ?_) ⟨fun a => ⟨a, hn⟩, fun a => a.1⟩
      rintro c rfl
      cases hf : (x.ctrl i).file with
      | none => exact ⟨_, rfl⟩
      | some f => exact ⟨_, bind_ok.2 ⟨(), write_ok v hf, rfl⟩⟩
  | finalize i =>
    simp only [step, SafeOp, finalize]
    rw [← closeFile_ok v i]
    constructor
    · rintro ⟨y, hy⟩
      obtain ⟨z, hz, _⟩ := bind_ok.1 hy
      exact ⟨z, hz⟩
    · rintro ⟨z, hz⟩
      exact ⟨_, bind_ok.2 ⟨z, hz, rfl⟩⟩

/-- All calls keep the invariant. -/
theorem run_inv {h : List Op} {x y : St} (v : Inv h x) (l : List Op) (hy : run x l = .ok y) : Inv (l.reverse ++ h) y := by
  induction l generalizing h x with
  | nil => cases hy; exact v
  | cons o l ih =>
    obtain ⟨z, hz, h2⟩ := bind_ok.1 hy
    have := ih (step_inv v o hz) h2
    rw [List.reverse_cons, List.append_assoc]
    exact this

theorem run_append (x : St) (a b : List Op) : run x (a ++ b) = (run x a).bind fun y => run y b := by
  induction a generalizing x with
  | nil => rfl
  | cons o a ih =>
    show (step x o).bind _ = ((step x o).bind _).bind _
    cases step x o with
    | error e => rfl
    | ok y => exact ih y

end Laik.Pf
