import Verif.Model.TcpConfigRun

/-!
# Invariant of the configuration objects and the update thread
-/

namespace Laik.Cf

variable {α : Type}

/-- The contents of all objects. -/
def vals (s : St α) : List α := s.objs.map (·.val)

/-- Number of references there should be to `o`. -/
def cnt (s : St α) (o : Nat) : Nat :=
  s.held.count o + (if s.cur = some o then 1 else 0) + s.upds.count (.loaded (some o))

/-- Counters are right, and exactly the objects without references are freed. -/
structure RInv (objs : List (Obj α)) (c : Nat → Nat) : Prop where
  refs : ∀ {o : Nat} {x : Obj α}, objs[o]? = some x → x.refs = c o
  free : ∀ {o : Nat} {x : Obj α}, objs[o]? = some x → (x.freed = true ↔ x.refs = 0)
  there : ∀ {o : Nat}, 0 < c o → o < objs.length

/-- One more reference to `o`. -/
def plus (c : Nat → Nat) (o : Nat) : Nat → Nat := fun p => c p + if p = o then 1 else 0

theorem RInv.congr {objs : List (Obj α)} {c d : Nat → Nat} (h : RInv objs c)
    (e : ∀ o, c o = d o) : RInv objs d := by
  have : c = d := funext e
  exact this ▸ h

theorem refObj_ok {s : St α} {c : Nat → Nat} (h : RInv s.objs c) {o : Nat} (ho : 0 < c o) :
    ∃ objs', refObj s o = .ok { s with objs := objs' } ∧ RInv objs' (plus c o) ∧
      objs'.map (·.val) = vals s := by
  have hl := h.there ho
  have hx : s.objs[o]? = some s.objs[o] := List.getElem?_eq_getElem hl
  have hr := h.refs hx
  have hf : ¬ s.objs[o].freed = true := by
    intro e
    have := (h.free hx).1 e
    omega
  refine ⟨s.objs.set o { s.objs[o] with refs := s.objs[o].refs + 1 }, ?_, ?_, ?_⟩
  · unfold refObj
    rw [hx]
    simp only
    rw [if_neg hf]
  · refine ⟨?_, ?_, ?_⟩
    · intro p x hp
      rw [List.getElem?_set] at hp
      by_cases e : o = p
      · subst e
        simp only [if_true, hl] at hp
        cases hp
        simp [plus, hr]
      · rw [if_neg e] at hp
        have e' : ¬ p = o := fun q => e q.symm
        simp only [plus, if_neg e', h.refs hp, Nat.add_zero]
    · intro p x hp
      rw [List.getElem?_set] at hp
      by_cases e : o = p
      · subst e
        simp only [if_true, hl] at hp
        cases hp
        simp only [Nat.add_eq_zero_iff]
        constructor
        · intro q; exact absurd q hf
        · intro q; omega
      · rw [if_neg e] at hp
        exact h.free hp
    · intro p hp
      rw [List.length_set]
      by_cases e : p = o
      · subst e; exact hl
      · simp only [plus, if_neg e, Nat.add_zero] at hp
        exact h.there hp
  · unfold vals
    rw [List.map_set]
    apply List.ext_getElem?
    intro i
    rw [List.getElem?_set]
    by_cases e : o = i
    · subst e
      simp [hl]
    · simp [e]

theorem unrefObj_ok {s : St α} {c : Nat → Nat} {o : Nat} (h : RInv s.objs (plus c o)) :
    ∃ objs', unrefObj s o = .ok { s with objs := objs' } ∧ RInv objs' c ∧
      objs'.map (·.val) = vals s := by
  have hl : o < s.objs.length := h.there (by simp [plus])
  have hx : s.objs[o]? = some s.objs[o] := List.getElem?_eq_getElem hl
  have hr := h.refs hx
  simp only [plus, if_true] at hr
  have hf : ¬ s.objs[o].freed = true := by
    intro e
    have := (h.free hx).1 e
    omega
  let y : Obj α := { s.objs[o] with refs := c o, freed := decide (c o = 0) }
  refine ⟨s.objs.set o y, ?_, ?_, ?_⟩
  · unfold unrefObj
    rw [hx]
    simp only
    rw [if_neg hf]
    by_cases e : c o = 0
    · rw [if_pos (by omega)]
      have : y = { s.objs[o] with refs := 0, freed := true } := by simp [y, e]
      rw [this]
    · rw [if_neg (by omega)]
      have : y = { s.objs[o] with refs := s.objs[o].refs - 1 } := by
        have e1 : s.objs[o].refs - 1 = c o := by omega
        have e2 : s.objs[o].freed = false := by simpa using hf
        rw [e1]
        show Obj.mk _ _ _ = Obj.mk _ _ _
        simp [e, e2]
      rw [this]
  · refine ⟨?_, ?_, ?_⟩
    · intro p x hp
      rw [List.getElem?_set] at hp
      by_cases e : o = p
      · subst e
        simp only [if_true, hl] at hp
        cases hp
        rfl
      · rw [if_neg e] at hp
        have e' : ¬ p = o := fun q => e q.symm
        have := h.refs hp
        simpa [plus, e'] using this
    · intro p x hp
      rw [List.getElem?_set] at hp
      by_cases e : o = p
      · subst e
        simp only [if_true, hl] at hp
        cases hp
        simp [y]
      · rw [if_neg e] at hp
        exact h.free hp
    · intro p hp
      rw [List.length_set]
      exact h.there (by simp only [plus]; omega)
  · unfold vals
    rw [List.map_set]
    apply List.ext_getElem?
    intro i
    rw [List.getElem?_set]
    by_cases e : o = i
    · subst e
      simp [hl, y]
    · simp [e]

theorem RInv.push {objs : List (Obj α)} {c : Nat → Nat} (h : RInv objs c) (a : α) :
    RInv (objs ++ [{ val := a, refs := 1, freed := false }]) (plus c objs.length) := by
  have h0 : c objs.length = 0 := by
    rcases Nat.eq_zero_or_pos (c objs.length) with e | e
    · exact e
    · exact absurd (h.there e) (Nat.lt_irrefl _)
  refine ⟨?_, ?_, ?_⟩
  · intro o x hx
    rw [List.getElem?_append] at hx
    by_cases e : o < objs.length
    · rw [if_pos e] at hx
      have : ¬ o = objs.length := by omega
      simp [plus, this, h.refs hx]
    · rw [if_neg e] at hx
      by_cases e2 : o - objs.length = 0
      · have e3 : o = objs.length := by omega
        rw [e2] at hx
        cases hx
        simp [plus, e3, h0]
      · rw [List.getElem?_eq_none (by simp; omega)] at hx
        cases hx
  · intro o x hx
    rw [List.getElem?_append] at hx
    by_cases e : o < objs.length
    · rw [if_pos e] at hx
      exact h.free hx
    · rw [if_neg e] at hx
      by_cases e2 : o - objs.length = 0
      · rw [e2] at hx
        cases hx
        simp
      · rw [List.getElem?_eq_none (by simp; omega)] at hx
        cases hx
  · intro o ho
    simp only [List.length_append, List.length_singleton]
    by_cases e : o = objs.length
    · omega
    · have := h.there (o := o) (by simpa [plus, e] using ho)
      omega

/-- Making an object: kept with one reference, or freed at once. -/
theorem newObj_ok {s : St α} {c : Nat → Nat} (h : RInv s.objs c) (a : α) (ok : Bool) :
    ∃ objs', newObj s a ok =
        .ok ({ s with objs := objs' }, if ok = true then some s.objs.length else none) ∧
      RInv objs' (if ok = true then plus c s.objs.length else c) ∧
      objs'.map (·.val) = vals s ++ [a] := by
  have hp := h.push a
  cases ok with
  | true =>
    refine ⟨_, ?_, hp, ?_⟩
    · simp [newObj]
    · simp [vals]
  | false =>
    obtain ⟨objs', e, hr, hv⟩ := unrefObj_ok (s := { s with objs := s.objs ++
      [{ val := a, refs := 1, freed := false }] }) (c := c) (o := s.objs.length) hp
    refine ⟨objs', ?_, hr, ?_⟩
    · simp only [newObj, Bool.false_eq_true, if_false]
      rw [e]
    · rw [hv]
      simp [vals]

/-- The loop of the first load. -/
theorem firstLoad_res (f : Nat → α × Bool) : ∀ (left tr : Nat) (s : St α) (c : Nat → Nat),
    RInv s.objs c →
    (firstLoad f left tr s = .error .aborted ∧ ∀ k, k ≤ left → (f (tr + k)).2 = false) ∨
    ∃ objs' o a, firstLoad f left tr s = .ok { s with objs := objs', cur := some o } ∧
      RInv objs' (plus c o) ∧ c o = 0 ∧
      firstGood f (left + 1) tr = some a ∧ (objs'.map (·.val))[o]? = some a ∧
      vals s <+: objs'.map (·.val) := by
  intro left
  induction left with
  | zero =>
    intro tr s c h
    obtain ⟨objs', e, hr, hv⟩ := newObj_ok h (f tr).1 (f tr).2
    unfold firstLoad
    rw [e]
    by_cases g : (f tr).2 = true
    · right
      rw [if_pos g] at hr
      simp only [if_pos g]
      refine ⟨objs', s.objs.length, (f tr).1, rfl, hr, ?_, ?_, ?_, ?_⟩
      · rcases Nat.eq_zero_or_pos (c s.objs.length) with z | z
        · exact z
        · exact absurd (h.there z) (Nat.lt_irrefl _)
      · simp [firstGood, g]
      · rw [hv]; simp [vals]
      · rw [hv]; exact List.prefix_append _ _
    · left
      simp only [if_neg g]
      refine ⟨trivial, ?_⟩
      intro k hk
      have : k = 0 := by omega
      subst this
      simpa using g
  | succ l ih =>
    intro tr s c h
    obtain ⟨objs', e, hr, hv⟩ := newObj_ok h (f tr).1 (f tr).2
    unfold firstLoad
    rw [e]
    by_cases g : (f tr).2 = true
    · right
      rw [if_pos g] at hr
      simp only [if_pos g]
      refine ⟨objs', s.objs.length, (f tr).1, rfl, hr, ?_, ?_, ?_, ?_⟩
      · rcases Nat.eq_zero_or_pos (c s.objs.length) with z | z
        · exact z
        · exact absurd (h.there z) (Nat.lt_irrefl _)
      · simp [firstGood, g]
      · rw [hv]; simp [vals]
      · rw [hv]; exact List.prefix_append _ _
    · rw [if_neg g] at hr
      simp only [if_neg g]
      rcases ih (tr + 1) { s with objs := objs' } c hr with ⟨e1, e2⟩ | ⟨ob, o, a, e1, e2, e3, e4, e5, e6⟩
      · left
        refine ⟨e1, ?_⟩
        intro k hk
        cases k with
        | zero => simpa using g
        | succ k =>
          have := e2 k (by omega)
          have q : tr + 1 + k = tr + (k + 1) := by omega
          rwa [q] at this
      · right
        refine ⟨ob, o, a, e1, e2, e3, ?_, e5, ?_⟩
        · have g' : (f tr).2 = false := by simpa using g
          rw [firstGood, g']
          simpa using e4
        · have : vals s <+: objs'.map (·.val) := by rw [hv]; exact List.prefix_append _ _
          exact this.trans e6

/-- Invariant: counters, and the static variables follow the update thread. -/
structure Inv (s : St α) : Prop where
  r : RInv s.objs (cnt s)
  act : ∀ {t : Nat} {u : Upd}, s.upds[t]? = some u → u ≠ .ended →
    s.running = true ∧ s.thread = some t
  run : s.running = true →
    ∃ t u, s.thread = some t ∧ s.upds[t]? = some u ∧ u ≠ .ended
  thr : ∀ {t : Nat}, s.thread = some t → t < s.upds.length

/-- The state agrees with the specification. -/
structure Sim (s : St α) (n : Newest α) : Prop where
  cur : n.cur = s.cur.bind fun o => (vals s)[o]?
  got : ∀ {t o : Nat}, s.upds[t]? = some (.loaded (some o)) → n.pend = (vals s)[o]?
  nothing : (∀ t o : Nat, s.upds[t]? ≠ some (.loaded (some o))) → n.pend = none

theorem inv_init : Inv (init : St α) := by
  refine ⟨⟨?_, ?_, ?_⟩, ?_, ?_, ?_⟩ <;> simp [init, cnt]

theorem sim_init : Sim (init : St α) { cur := none, pend := none } := by
  refine ⟨?_, ?_, ?_⟩ <;> simp [init]

theorem prefix_get {l m : List α} (h : l <+: m) {i : Nat} (hi : i < l.length) :
    m[i]? = l[i]? := by
  obtain ⟨k, rfl⟩ := h
  rw [List.getElem?_append, if_pos hi]

theorem vals_length (s : St α) : (vals s).length = s.objs.length := by simp [vals]

theorem Inv.curLt {s : St α} (h : Inv s) {o : Nat} (hc : s.cur = some o) :
    o < s.objs.length := h.r.there (by simp [cnt, hc]; omega)

theorem Inv.loadLt {s : St α} (h : Inv s) {t o : Nat}
    (hc : s.upds[t]? = some (.loaded (some o))) : o < s.objs.length := by
  apply h.r.there
  have : 0 < s.upds.count (.loaded (some o)) :=
    List.count_pos_iff.2 (List.mem_of_getElem? hc)
  simp only [cnt]; omega

/-- Only the objects changed, contents kept: the agreement stays. -/
theorem Sim.mono {s s' : St α} {n : Newest α} (hi : Inv s) (h : Sim s n)
    (hv : vals s <+: vals s') (hc : s'.cur = s.cur) (hu : s'.upds = s.upds) : Sim s' n := by
  refine ⟨?_, ?_, ?_⟩
  · rw [h.cur, hc]
    cases e : s.cur with
    | none => rfl
    | some o =>
      have hl : o < (vals s).length := by rw [vals_length]; exact hi.curLt e
      exact (prefix_get hv hl).symm
  · intro t o e
    rw [hu] at e
    have hl : o < (vals s).length := by rw [vals_length]; exact hi.loadLt e
    rw [h.got e, prefix_get hv hl]
  · intro e
    rw [hu] at e
    exact h.nothing e

/-! Parts of `laik_tcp_config`. -/

theorem firstPart_ok {s : St α} {n : Newest α} (hi : Inv s) (hs : Sim s n) (now : Nat)
    (f : Nat → α × Bool) :
    (firstPart s now f = .error .aborted ∧ s.cur = none ∧ ∀ k, k ≤ 10 → (f k).2 = false) ∨
    ∃ s', firstPart s now f = .ok s' ∧ Inv s' ∧ Sim s' (newestStep n (.call now f)) ∧
      vals s <+: vals s' ∧ s'.held = s.held ∧ s'.cur ≠ none ∧ s'.running = s.running ∧
      s'.thread = s.thread ∧ s'.upds = s.upds ∧ (s.cur ≠ none → s' = s) ∧
      (s.cur = none → s'.stamp = now) := by
  unfold firstPart
  cases e : s.cur with
  | some o =>
    right
    have hn : ∃ a, n.cur = some a := by
      have hl : o < (vals s).length := by rw [vals_length]; exact hi.curLt e
      refine ⟨(vals s)[o], ?_⟩
      rw [hs.cur, e]
      simp [List.getElem?_eq_getElem hl]
    obtain ⟨a, ha⟩ := hn
    refine ⟨s, rfl, hi, ?_, List.prefix_refl _, rfl, by simp [e], rfl, rfl, rfl, fun _ => rfl,
      fun q => by cases q⟩
    have : newestStep n (.call now f) = n := by simp [newestStep, ha]
    rw [this]
    exact hs
  | none =>
    have hn : n.cur = none := by rw [hs.cur, e]; rfl
    rcases firstLoad_res f 10 0 s (cnt s) hi.r with ⟨e1, e2⟩ | ⟨ob, o, a, e1, e2, e3, e4, e5, e6⟩
    · left
      simp only [e1]
      refine ⟨trivial, trivial, ?_⟩
      intro k hk
      have := e2 k hk
      rwa [Nat.zero_add] at this
    · right
      simp only [e1]
      refine ⟨_, rfl, ?_, ?_, e6, rfl, by simp, rfl, rfl, rfl, fun q => absurd rfl q,
        fun _ => rfl⟩
      · refine ⟨?_, ?_, ?_, ?_⟩
        · apply e2.congr
          intro p
          simp only [plus, cnt, e]
          by_cases q : p = o
          · subst q; simp; omega
          · have : ¬ o = p := fun z => q z.symm
            simp [q, this]
        · exact hi.act
        · exact hi.run
        · exact hi.thr
      · refine ⟨?_, ?_, ?_⟩
        · simp only [newestStep, hn, e4]
          simp only [Option.bind_some, vals]
          exact e5.symm
        · intro t p q
          have hl : p < (vals s).length := by rw [vals_length]; exact hi.loadLt q
          have := hs.got q
          simp only [newestStep, hn]
          rw [this]
          exact (prefix_get e6 hl).symm
        · intro q
          simp only [newestStep, hn]
          exact hs.nothing q

theorem reap_ok {s : St α} {n : Newest α} (hi : Inv s) (hs : Sim s n) :
    ∃ s', reap s = .ok s' ∧ Inv s' ∧ Sim s' n ∧ vals s' = vals s ∧ s'.held = s.held ∧
      s'.cur = s.cur ∧ s'.running = s.running ∧ s'.upds = s.upds ∧ s'.stamp = s.stamp ∧
      (s.running = false → s'.thread = none) := by
  unfold reap
  cases e : s.thread with
  | none => exact ⟨s, rfl, hi, hs, rfl, rfl, rfl, rfl, rfl, rfl, fun _ => e⟩
  | some t =>
    simp only
    by_cases r : s.running = true
    · rw [if_pos r]
      exact ⟨s, rfl, hi, hs, rfl, rfl, rfl, rfl, rfl, rfl, fun q => by rw [r] at q; cases q⟩
    · rw [if_neg r]
      have hl := hi.thr e
      have hg : s.upds[t]? = some s.upds[t] := List.getElem?_eq_getElem hl
      have he : s.upds[t] = .ended := by
        apply Decidable.byContradiction
        intro q
        exact r (hi.act hg q).1
      rw [he] at hg
      rw [if_pos hg]
      refine ⟨_, rfl, ⟨hi.r, ?_, ?_, ?_⟩, ⟨hs.cur, hs.got, hs.nothing⟩, rfl, rfl, rfl, rfl, rfl,
        rfl, fun _ => rfl⟩
      · intro t u a b
        exact absurd (hi.act a b).1 r
      · intro a
        exact absurd a r
      · intro t a
        cases a

theorem start_ok {s : St α} {n : Newest α} (hi : Inv s) (hs : Sim s n) (now : Nat)
    (ht : s.running = false → s.thread = none) :
    ∃ s', start s now = .ok s' ∧ Inv s' ∧ Sim s' n ∧ vals s' = vals s ∧ s'.held = s.held ∧
      s'.cur = s.cur ∧ (s'.running = true ∨ now ≤ s'.stamp + 1000) ∧
      (s'.upds = s.upds ∧ s'.stamp = s.stamp ∧ s'.running = s.running ∨
        s.running = false ∧ s'.upds = s.upds ++ [.started] ∧ now > s.stamp + 1000 ∧
        s'.stamp = now) := by
  unfold start
  by_cases c : s.running = false ∧ now > s.stamp + 1000
  · rw [if_pos c, ht c.1]
    refine ⟨_, rfl, ⟨?_, ?_, ?_, ?_⟩, ⟨hs.cur, ?_, ?_⟩, rfl, rfl, rfl, Or.inl rfl,
      Or.inr ⟨c.1, rfl, c.2, rfl⟩⟩
    · apply hi.r.congr
      intro o
      simp [cnt, List.count_append]
    · intro t u a b
      refine ⟨rfl, ?_⟩
      simp only at a ⊢
      rw [List.getElem?_append] at a
      by_cases q : t < s.upds.length
      · rw [if_pos q] at a
        have := (hi.act a b).1
        rw [c.1] at this
        cases this
      · by_cases z : t = s.upds.length
        · rw [z]
        · rw [if_neg q, List.getElem?_eq_none (by simp; omega)] at a
          cases a
    · intro _
      exact ⟨s.upds.length, .started, rfl, by simp, by simp⟩
    · intro t a
      simp only [List.length_append, List.length_singleton] at a ⊢
      cases a
      omega
    · intro t o a
      simp only at a
      rw [List.getElem?_append] at a
      by_cases q : t < s.upds.length
      · rw [if_pos q] at a
        exact hs.got a
      · rw [if_neg q] at a
        by_cases z : t - s.upds.length = 0
        · rw [z] at a; cases a
        · rw [List.getElem?_eq_none (by simp; omega)] at a
          cases a
    · intro a
      apply hs.nothing
      intro t o q
      apply a t o
      simp only
      rw [List.getElem?_append, if_pos (List.getElem?_eq_some_iff.1 q).1]
      exact q
  · rw [if_neg c]
    refine ⟨s, rfl, hi, hs, rfl, rfl, rfl, ?_, Or.inl ⟨rfl, rfl, rfl⟩⟩
    cases r : s.running with
    | true => exact Or.inl rfl
    | false =>
      right
      have : ¬ now > s.stamp + 1000 := fun q => c ⟨r, q⟩
      omega

/-- `laik_tcp_config`. -/
theorem call_ok {s : St α} {n : Newest α} (hi : Inv s) (hs : Sim s n) (now : Nat)
    (f : Nat → α × Bool) :
    (call s now f = .error .aborted ∧ s.cur = none ∧ ∀ k, k ≤ 10 → (f k).2 = false) ∨
    ∃ s' o, call s now f = .ok s' ∧ Inv s' ∧ Sim s' (newestStep n (.call now f)) ∧
      vals s <+: vals s' ∧ s'.held = s.held ++ [o] ∧ s'.cur = some o ∧
      (s'.running = true ∨ now ≤ s'.stamp + 1000) ∧
      (s.cur = none ∧ s'.upds = s.upds ∧ s'.stamp = now ∨
        s.cur ≠ none ∧ s'.upds = s.upds ∧ s'.stamp = s.stamp ∨
        s.cur ≠ none ∧ s.running = false ∧ now > s.stamp + 1000 ∧
          s'.upds = s.upds ++ [.started] ∧ s'.stamp = now) := by
  unfold call
  rcases firstPart_ok hi hs now f with ⟨a, b, c⟩ | ⟨s1, a1, i1, m1, v1, h1, c1, r1, t1, u1, k1, n1⟩
  · left
    rw [a]
    exact ⟨rfl, b, c⟩
  · right
    obtain ⟨s2, a2, i2, m2, v2, h2, c2, r2, u2, st2, t2⟩ := reap_ok i1 m1
    obtain ⟨s3, a3, i3, m3, v3, h3, c3, f3, u3⟩ := start_ok i2 m2 now (by rw [r2]; exact t2)
    cases e : s3.cur with
    | none => rw [c3, c2] at e; exact absurd e c1
    | some o =>
      obtain ⟨ob, a4, r4, v4⟩ := refObj_ok i3.r (o := o) (by simp [cnt, e]; omega)
      refine ⟨{ s3 with objs := ob, held := s3.held ++ [o] }, o, ?_, ?_, ?_, ?_, ?_, ?_, f3, ?_⟩
      · simp only [a1, bind, Except.bind, a2, a3, e, a4]
      · refine ⟨?_, i3.act, i3.run, i3.thr⟩
        apply r4.congr
        intro p
        simp only [plus, cnt, List.count_append]
        by_cases q : p = o
        · subst q; simp; omega
        · have : ¬ o = p := fun z => q z.symm
          simp [q, this]
      · have hv : vals s3 <+: ob.map (·.val) := by rw [v4]; exact List.prefix_refl _
        exact Sim.mono i3 m3 (s' := { s3 with objs := ob, held := s3.held ++ [o] }) hv rfl rfl
      · show vals s <+: ob.map (·.val)
        rw [v4, v3, v2]
        exact v1
      · show s3.held ++ [o] = s.held ++ [o]
        rw [h3, h2, h1]
      · exact e
      · by_cases z : s.cur = none
        · have h1 := n1 z
          rcases u3 with ⟨q, q1, _⟩ | ⟨q, q1, q2, q3⟩
          · left
            refine ⟨z, ?_, ?_⟩
            · show s3.upds = s.upds
              rw [q, u2, u1]
            · show s3.stamp = now
              rw [q1, st2, h1]
          · rw [st2, h1] at q2
            omega
        · right
          have h1 := k1 z
          rcases u3 with ⟨q, q1, _⟩ | ⟨q, q1, q2, q3⟩
          · left
            refine ⟨z, ?_, ?_⟩
            · show s3.upds = s.upds
              rw [q, u2, u1]
            · show s3.stamp = s.stamp
              rw [q1, st2, h1]
          · right
            refine ⟨z, by rw [← r1, ← r2]; exact q, ?_, ?_, q3⟩
            · rw [st2, h1] at q2
              exact q2
            · show s3.upds = _
              rw [q1, u2, u1]

theorem count_eraseIdx {β : Type} [DecidableEq β] : ∀ (l : List β) (k : Nat) {o : β},
    l[k]? = some o → ∀ p, l.count p = (l.eraseIdx k).count p + if p = o then 1 else 0 := by
  intro l
  induction l with
  | nil => intro k o h; simp at h
  | cons a t ih =>
    intro k o h p
    cases k with
    | zero =>
      simp only [List.getElem?_cons_zero, Option.some.injEq] at h
      subst h
      rw [List.eraseIdx_cons_zero, List.count_cons]
      by_cases q : p = a
      · subst q; simp
      · have : ¬ a = p := fun z => q z.symm
        simp [q, this]
    | succ k =>
      simp only [List.getElem?_cons_succ] at h
      have := ih k h p
      simp only [List.eraseIdx_cons_succ, List.count_cons]
      omega

/-- Giving up a reference. -/
theorem drop_ok {s : St α} {n : Newest α} (hi : Inv s) (hs : Sim s n) (k : Nat) :
    drop s k = .error .impossible ∨
    ∃ s', drop s k = .ok s' ∧ Inv s' ∧ Sim s' n ∧ vals s <+: vals s' := by
  unfold drop
  cases e : s.held[k]? with
  | none => exact Or.inl rfl
  | some o =>
    right
    have hc := count_eraseIdx s.held k e
    obtain ⟨ob, a, r, v⟩ := unrefObj_ok (s := s) (o := o)
      (c := fun p => (s.held.eraseIdx k).count p + (if s.cur = some p then 1 else 0) +
        s.upds.count (.loaded (some p))) (by
        apply hi.r.congr
        intro p
        simp only [cnt, plus, hc p]
        omega)
    simp only [a]
    refine ⟨_, rfl, ⟨r, hi.act, hi.run, hi.thr⟩, ?_, ?_⟩
    · exact Sim.mono hi hs (by show vals s <+: ob.map (·.val); rw [v]; exact List.prefix_refl _)
        rfl rfl
    · show vals s <+: ob.map (·.val)
      rw [v]
      exact List.prefix_refl _

theorem count_set {β : Type} [DecidableEq β] : ∀ (l : List β) (k : Nat) {a : β} (b : β),
    l[k]? = some a → ∀ p, (l.set k b).count p + (if p = a then 1 else 0) =
      l.count p + if p = b then 1 else 0 := by
  intro l
  induction l with
  | nil => intro k a b h; simp at h
  | cons x t ih =>
    intro k a b h p
    cases k with
    | zero =>
      simp only [List.getElem?_cons_zero, Option.some.injEq] at h
      subst h
      rw [List.set_cons_zero, List.count_cons, List.count_cons]
      have c1 : (x == p) = decide (p = x) := by
        by_cases q : p = x
        · subst q; simp
        · have : ¬ x = p := fun z => q z.symm
          simp [q, this]
      have c2 : (b == p) = decide (p = b) := by
        by_cases q : p = b
        · subst q; simp
        · have : ¬ b = p := fun z => q z.symm
          simp [q, this]
      rw [c1, c2]
      simp only [decide_eq_true_eq]
      omega
    | succ k =>
      simp only [List.getElem?_cons_succ] at h
      have := ih k b h p
      simp only [List.set_cons_succ, List.count_cons]
      omega

/-- Only one thread is at work. -/
theorem Inv.only {s : St α} (h : Inv s) {t r : Nat} {u w : Upd} (ht : s.upds[t]? = some u)
    (hu : u ≠ .ended) (hr : s.upds[r]? = some w) (hw : w ≠ .ended) : r = t := by
  have a := (h.act ht hu).2
  have b := (h.act hr hw).2
  rw [a] at b
  exact (Option.some.inj b).symm

/-- Reading the file in the update thread. -/
theorem load_ok {s : St α} {n : Newest α} (hi : Inv s) (hs : Sim s n) (t : Nat) (c : α)
    (ok : Bool) :
    load s t c ok = .error .impossible ∨
    ∃ s', load s t c ok = .ok s' ∧ Inv s' ∧ Sim s' (newestStep n (.load t c ok)) ∧
      vals s <+: vals s' := by
  unfold load
  by_cases e : s.upds[t]? = some .started
  · right
    rw [if_pos e]
    obtain ⟨ob, a, r, v⟩ := newObj_ok hi.r c ok
    rw [a]
    have hlt : t < s.upds.length := (List.getElem?_eq_some_iff.1 e).1
    have hact := hi.act e (by simp)
    simp only
    have hv : vals s <+: ob.map (·.val) := by rw [v]; exact List.prefix_append _ _
    refine ⟨_, rfl, ⟨?_, ?_, ?_, ?_⟩, ⟨?_, ?_, ?_⟩, hv⟩
    · cases ok with
      | true =>
        simp only [if_true] at r ⊢
        apply r.congr
        intro p
        have := count_set s.upds t (.loaded (some s.objs.length)) e (.loaded (some p))
        simp only [plus, cnt]
        by_cases q : p = s.objs.length
        · subst q; simp at this ⊢; omega
        · have q' : ¬ s.objs.length = p := fun z => q z.symm
          simp [q] at this ⊢; omega
      | false =>
        simp only [Bool.false_eq_true, if_false] at r ⊢
        apply r.congr
        intro p
        have := count_set s.upds t (.loaded none) e (.loaded (some p))
        simp only [cnt]
        simp at this ⊢; omega
    · intro t' u a b
      simp only at a ⊢
      rw [List.getElem?_set] at a
      by_cases q : t = t'
      · subst q; exact hact
      · rw [if_neg q] at a
        exact hi.act a b
    · intro _
      refine ⟨t, .loaded (if ok = true then some s.objs.length else none), hact.2, ?_, by simp⟩
      simp only
      rw [List.getElem?_set, if_pos rfl, if_pos hlt]
    · intro t' a
      simp only [List.length_set] at a ⊢
      exact hi.thr a
    · show n.cur = s.cur.bind fun o => (ob.map (·.val))[o]?
      rw [hs.cur]
      cases q : s.cur with
      | none => rfl
      | some o =>
        have hl : o < (vals s).length := by rw [vals_length]; exact hi.curLt q
        exact (prefix_get hv hl).symm
    · intro t' o a
      simp only at a
      rw [List.getElem?_set] at a
      by_cases q : t = t'
      · subst q
        simp only [if_true, hlt] at a
        cases ok with
        | true =>
          simp at a
          subst a
          show (newestStep n (.load t c true)).pend = (ob.map (·.val))[s.objs.length]?
          rw [v]
          simp [newestStep, vals]
        | false => simp at a
      · rw [if_neg q] at a
        exact absurd (hi.only e (by simp) a (by simp)).symm q
    · intro a
      cases ok with
      | true =>
        exfalso
        apply a t s.objs.length
        simp only [if_true]
        rw [List.getElem?_set, if_pos rfl, if_pos hlt]
      | false => simp [newestStep]
  · left
    rw [if_neg e]

/-- Putting the result into place. -/
theorem install_ok {s : St α} {n : Newest α} (hi : Inv s) (hs : Sim s n) (t : Nat) :
    install s t = .error .impossible ∨
    ∃ s', install s t = .ok s' ∧ Inv s' ∧ Sim s' (newestStep n (.install t)) ∧
      vals s <+: vals s' := by
  unfold install
  cases e : s.upds[t]? with
  | none => exact Or.inl rfl
  | some u =>
    cases u with
    | started => exact Or.inl rfl
    | ended => exact Or.inl rfl
    | loaded w =>
      right
      have hlt : t < s.upds.length := (List.getElem?_eq_some_iff.1 e).1
      have hact := hi.act e (by simp)
      have hact' : ∀ {t' : Nat} {u : Upd}, (s.upds.set t .ended)[t']? = some u → u = .ended := by
        intro t' u a
        rw [List.getElem?_set] at a
        by_cases q : t = t'
        · subst q
          simp only [if_true, hlt] at a
          cases a
          rfl
        · rw [if_neg q] at a
          apply Decidable.byContradiction
          intro z
          exact q (hi.only e (by simp) a z).symm
      have cl := fun o => count_set s.upds t .ended e (.loaded (some o))
      cases w with
      | none =>
        simp only
        refine ⟨_, rfl, ⟨?_, ?_, ?_, ?_⟩, ?_, List.prefix_refl _⟩
        · apply hi.r.congr
          intro o
          have := cl o
          simp at this
          simp only [cnt]
          omega
        · intro t' u a b
          exact absurd (hact' a) b
        · intro a; cases a
        · intro t' a
          simp only [List.length_set] at a ⊢
          exact hi.thr a
        · have hp : n.pend = none := by
            apply hs.nothing
            intro t' o a
            have := hi.only e (by simp) a (by simp)
            subst this
            rw [e] at a
            cases a
          have hn : newestStep n (.install t) = n := by simp [newestStep, hp]
          rw [hn]
          refine ⟨hs.cur, ?_, fun _ => hp⟩
          intro t' o a
          exact absurd (hact' a) (by simp)
      | some m =>
        have hm := hi.loadLt e
        have hml : m < (vals s).length := by rw [vals_length]; exact hm
        have hp : n.pend = some (vals s)[m] := by
          rw [hs.got e, List.getElem?_eq_getElem hml]
        -- the old object
        have hold : ∃ ob, unrefCur s = .ok { s with objs := ob } ∧
            RInv ob (fun p => s.held.count p + s.upds.count (.loaded (some p))) ∧
            ob.map (·.val) = vals s := by
          unfold unrefCur
          rcases q : s.cur with _ | o
          · refine ⟨s.objs, by simp only [q]; rw [← q], ?_, rfl⟩
            apply hi.r.congr
            intro p
            simp [cnt, q]
          · obtain ⟨ob, a, r, v⟩ := unrefObj_ok (s := s) (o := o)
              (c := fun p => s.held.count p + s.upds.count (.loaded (some p))) (by
                apply hi.r.congr
                intro p
                simp only [cnt, plus, q, Option.some.injEq]
                by_cases z : p = o
                · subst z; simp; omega
                · have z' : ¬ o = p := fun y => z y.symm
                  simp [z, z'])
            rw [q] at a
            exact ⟨ob, a, r, v⟩
        obtain ⟨ob, a, r, v⟩ := hold
        simp only
        rw [a]
        refine ⟨_, rfl, ⟨?_, ?_, ?_, ?_⟩, ?_, ?_⟩
        · apply r.congr
          intro p
          have := cl p
          simp only [cnt, Option.some.injEq]
          by_cases z : p = m
          · subst z; simp at this ⊢; omega
          · have z' : ¬ m = p := fun y => z y.symm
            simp [z] at this
            simp [z']
            omega
        · intro t' u a b
          exact absurd (hact' a) b
        · intro a; cases a
        · intro t' a
          simp only [List.length_set] at a ⊢
          exact hi.thr a
        · refine ⟨?_, ?_, ?_⟩
          · simp only [newestStep, hp, Option.bind_some]
            show _ = (ob.map (·.val))[m]?
            rw [v, List.getElem?_eq_getElem hml]
          · intro t' o a
            exact absurd (hact' a) (by simp)
          · intro _
            simp [newestStep, hp]
        · show vals s <+: ob.map (·.val)
          rw [v]
          exact List.prefix_refl _

/-- Why a step may fail. -/
def Excuse (s : St α) (e : Ev α) (f : Fault) : Prop :=
  f = .impossible ∨
  f = .aborted ∧ ∃ now g, e = .call now g ∧ s.cur = none ∧ ∀ k, k ≤ 10 → (g k).2 = false

theorem step_ok {s : St α} {n : Newest α} (hi : Inv s) (hs : Sim s n) (e : Ev α) :
    (∃ f, step s e = .error f ∧ Excuse s e f) ∨
    ∃ s', step s e = .ok s' ∧ Inv s' ∧ Sim s' (newestStep n e) ∧ vals s <+: vals s' := by
  cases e with
  | call now g =>
    rcases call_ok hi hs now g with ⟨a, b, c⟩ | ⟨s', o, a, b, c, d, _⟩
    · exact Or.inl ⟨_, a, Or.inr ⟨rfl, now, g, rfl, b, c⟩⟩
    · exact Or.inr ⟨s', a, b, c, d⟩
  | drop k =>
    rcases drop_ok hi hs k with a | a
    · exact Or.inl ⟨_, a, Or.inl rfl⟩
    · exact Or.inr a
  | load t c ok =>
    rcases load_ok hi hs t c ok with a | a
    · exact Or.inl ⟨_, a, Or.inl rfl⟩
    · exact Or.inr a
  | install t =>
    rcases install_ok hi hs t with a | a
    · exact Or.inl ⟨_, a, Or.inl rfl⟩
    · exact Or.inr a

theorem run_ok : ∀ (evs : List (Ev α)) {s s' : St α} {n : Newest α}, Inv s → Sim s n →
    run evs s = .ok s' → Inv s' ∧ Sim s' (evs.foldl newestStep n) ∧ vals s <+: vals s' := by
  intro evs
  induction evs with
  | nil =>
    intro s s' n hi hs h
    simp only [run] at h
    cases h
    exact ⟨hi, hs, List.prefix_refl _⟩
  | cons e t ih =>
    intro s s' n hi hs h
    rcases step_ok hi hs e with ⟨f, a, _⟩ | ⟨s1, a, b, c, d⟩
    · simp [run, a] at h
    · simp only [run, a] at h
      obtain ⟨p, q, r⟩ := ih b c h
      exact ⟨p, q, d.trans r⟩

theorem run_append : ∀ (as bs : List (Ev α)) (s : St α),
    run (as ++ bs) s = match run as s with
      | .error f => .error f
      | .ok s1 => run bs s1 := by
  intro as
  induction as with
  | nil => intro bs s; rfl
  | cons e t ih =>
    intro bs s
    simp only [List.cons_append, run]
    cases step s e with
    | error f => rfl
    | ok s1 => exact ih bs s1

/-- A run which stops does so at some event, for a good reason. -/
theorem run_fault : ∀ (evs : List (Ev α)) {s : St α} {n : Newest α} {f : Fault}, Inv s →
    Sim s n → run evs s = .error f →
    ∃ as e bs s1, evs = as ++ e :: bs ∧ run as s = .ok s1 ∧ Inv s1 ∧ Excuse s1 e f := by
  intro evs
  induction evs with
  | nil => intro s n f _ _ h; simp [run] at h
  | cons e t ih =>
    intro s n f hi hs h
    rcases step_ok hi hs e with ⟨g, a, b⟩ | ⟨s1, a, b, c, d⟩
    · simp only [run, a] at h
      cases h
      exact ⟨[], e, t, s, rfl, rfl, hi, b⟩
    · simp only [run, a] at h
      obtain ⟨as, e', bs, s2, p, q, r, x⟩ := ih b c h
      exact ⟨e :: as, e', bs, s2, by rw [p]; rfl, by simp only [run, a]; exact q, r, x⟩

end Laik.Cf
