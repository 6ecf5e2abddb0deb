import Verif.Model.Server
/-!
# Invariants of the threads of the server of the TCP backend
-/

namespace Laik.Sv

/-- Sockets of a queue. -/
abbrev socks (q : Queue) : List Nat := q.map Prod.fst

theorem firstReady_count {q q' : Queue} {s : Nat} (h : firstReady q = some (s, q')) (t : Nat) :
    (socks q).count t = (socks q').count t + [s].count t := by
  induction q generalizing q' with
  | nil => cases h
  | cons e q ih =>
    rw [firstReady] at h
    by_cases he : e.2 = true
    · rw [if_pos he] at h
      cases h
      simp [socks, List.count_cons]
    · rw [if_neg he] at h
      cases hr : firstReady q with
      | none => rw [hr] at h; cases h
      | some r =>
        rw [hr] at h
        obtain ⟨r1, r2⟩ := r
        cases h
        have := ih hr
        simp only [socks, List.map_cons, List.count_cons] at this ⊢
        omega

theorem polled_socks (ready : Nat → Bool) (q : Queue) : socks (polled ready q) = socks q := by
  simp [socks, polled]

theorem push_count (q : Queue) (s t : Nat) : (socks (push q s)).count t = (socks q).count t + [s].count t := by
  simp [socks, push]

/-- The loop which drops connections removes all but the listening socket from the first
`i` entries. -/
theorem dropAll_eq : ∀ (i : Nat) (q : Queue), i ≤ q.length →
    (dropAll i q).1 = (q.take i).filter (·.1 = 0) ++ q.drop i ∧
    (dropAll i q).2 = (socks ((q.take i).filter (·.1 ≠ 0))).reverse := by
  intro i
  induction i with
  | zero => intro q _; simp [dropAll, socks]
  | succ i ih =>
    intro q hi
    obtain ⟨e, he⟩ : ∃ e, q[i]? = some e := ⟨q[i], List.getElem?_eq_getElem (by omega)⟩
    have hg : q[i] = e := by
      have := List.getElem?_eq_getElem (l := q) (i := i) (by omega)
      rw [he] at this
      exact (Option.some.inj this).symm
    have ht : q.take (i + 1) = q.take i ++ [e] := by
      rw [List.take_add_one, he]; rfl
    have hd : q.drop i = e :: q.drop (i + 1) := by
      rw [List.drop_eq_getElem_cons (by omega), hg]
    rw [dropAll, he]
    simp only
    by_cases h : e.1 = 0
    · rw [if_neg (by simpa using h)]
      obtain ⟨h1, h2⟩ := ih q (by omega)
      rw [h1, h2, ht, hd]
      simp [h, socks]
    · rw [if_pos h]
      have hx : q.eraseIdx i = q.take i ++ q.drop (i + 1) := List.eraseIdx_eq_take_drop_succ q i
      obtain ⟨h1, h2⟩ := ih (q.eraseIdx i) (by rw [List.length_eraseIdx]; split <;> omega)
      have g1 : (q.eraseIdx i).take i = q.take i := by
        rw [hx, List.take_left' (by simp; omega)]
      have g2 : (q.eraseIdx i).drop i = q.drop (i + 1) := by
        rw [hx, List.drop_left' (by simp; omega)]
      rw [h1, h2, g1, g2, ht]
      simp [h, socks]

theorem dropAll_length (q : Queue) : (dropAll q.length q).1 = q.filter (·.1 = 0) ∧
    (dropAll q.length q).2 = (socks (q.filter (·.1 ≠ 0))).reverse := by
  have := dropAll_eq q.length q (Nat.le_refl _)
  simpa using this

theorem count_filter_split (q : Queue) (t : Nat) :
    (socks q).count t = (socks (q.filter (·.1 = 0))).count t + (socks (q.filter (·.1 ≠ 0))).count t := by
  induction q with
  | nil => rfl
  | cons e q ih =>
    by_cases h : e.1 = 0
    · simp only [socks, List.map_cons, List.count_cons, List.filter_cons, h, decide_true, if_pos, ne_eq, not_true_eq_false, decide_false] at ih ⊢
      simp
      simp at ih
      omega
    · simp only [socks, List.map_cons, List.count_cons, List.filter_cons, h, decide_false, ne_eq, not_false_eq_true, decide_true, if_pos] at ih ⊢
      simp
      simp at ih
      omega

theorem limited_count (limit : Nat) (q : Queue) (t : Nat) :
    (socks q).count t = (socks (limited limit q).1).count t + (limited limit q).2.count t := by
  unfold limited
  by_cases h : q.length > limit
  · rw [if_pos h, (dropAll_length q).1, (dropAll_length q).2, List.count_reverse]
    exact count_filter_split q t
  · rw [if_neg h]
    rfl

theorem limited_zero (limit : Nat) (q : Queue) : 0 ∉ (limited limit q).2 := by
  unfold limited
  by_cases h : q.length > limit
  · rw [if_pos h, (dropAll_length q).2]
    intro hm
    rw [List.mem_reverse, List.mem_map] at hm
    obtain ⟨e, he, h0⟩ := hm
    have := (List.mem_filter.1 he).2
    simp [h0] at this
  · rw [if_neg h]
    intro hm; cases hm

/-- Places of socket `t`, without those of threads. -/
def Sh.own (x : Sh) (t : Nat) : Nat := (socks x.queue).count t + x.returned.count t + x.freed.count t

theorem tstep_own {limit : Nat} {x x' : Sh} {p p' : Pc} (h : TStep limit x p x' p') (t : Nat) :
    x.next ≤ x'.next ∧
    x'.own t + p'.held.count t = x.own t + p.held.count t + (if x.next ≤ t ∧ t < x'.next then 1 else 0) := by
  have hz : ∀ (n m k : Nat), (n + m = n + m + if k ≤ t ∧ t < k then 1 else 0) := by
    intro n m k
    rw [if_neg (by omega)]
    rfl
  cases h with
  | enter => exact ⟨Nat.le_refl _, hz _ _ _⟩
  | stop => exact ⟨Nat.le_refl _, hz _ _ _⟩
  | go => exact ⟨Nat.le_refl _, hz _ _ _⟩
  | take s r hr =>
    refine ⟨Nat.le_refl _, ?_⟩
    rw [if_neg (by simp only; omega)]
    simp only [Sh.own, push_count, hr, List.count_cons, List.count_nil]
    omega
  | drained => exact ⟨Nat.le_refl _, hz _ _ _⟩
  | limit =>
    refine ⟨Nat.le_refl _, ?_⟩
    rw [if_neg (by simp only; omega)]
    have := limited_count limit x.queue t
    simp only [Sh.own, List.count_append]
    have e : (Pc.pop).held = (Pc.limit).held := rfl
    rw [e]
    omega
  | poll ready =>
    refine ⟨Nat.le_refl _, ?_⟩
    rw [if_neg (by simp only; omega)]
    simp only [Sh.own, polled_socks]
    rfl
  | popSignal => exact ⟨Nat.le_refl _, hz _ _ _⟩
  | popSock s q _ hf =>
    refine ⟨Nat.le_refl _, ?_⟩
    rw [if_neg (by simp only; omega)]
    have := firstReady_count hf t
    simp only [Sh.own, Pc.held, List.count_nil]
    omega
  | receive =>
    refine ⟨Nat.le_refl _, ?_⟩
    rw [if_neg (by simp only; omega)]
    simp only [Sh.own]
    rfl
  | cleared => exact ⟨Nat.le_refl _, hz _ _ _⟩
  | accept =>
    refine ⟨Nat.le_succ _, ?_⟩
    have e : (if x.next ≤ t ∧ t < x.next + 1 then 1 else 0 : Nat) = if x.next = t then 1 else 0 := by
      by_cases ht : x.next = t
      · rw [if_pos ht, if_pos (by omega)]
      · rw [if_neg ht, if_neg (by omega)]
    simp only [Sh.own, push_count, Pc.held, List.count_cons, List.count_nil, beq_iff_eq, e]
    omega
  | noAccept =>
    refine ⟨Nat.le_refl _, ?_⟩
    rw [if_neg (by simp only; omega)]
    simp only [Sh.own, push_count, Pc.held, List.count_nil]
    omega
  | closed s =>
    refine ⟨Nat.le_refl _, ?_⟩
    rw [if_neg (by simp only; omega)]
    simp only [Sh.own, Pc.held, List.count_append, List.count_nil]
    omega
  | input s => exact ⟨Nat.le_refl _, hz _ _ _⟩
  | fail s =>
    refine ⟨Nat.le_refl _, ?_⟩
    rw [if_neg (by simp only; omega)]
    simp only [Sh.own, Pc.held, List.count_append, List.count_nil]
    omega
  | ok s =>
    refine ⟨Nat.le_refl _, ?_⟩
    rw [if_neg (by simp only; omega)]
    simp only [Sh.own, Pc.held, List.count_append, List.count_nil]
    omega
  | send => exact ⟨Nat.le_refl _, hz _ _ _⟩
  | sendFull => exact ⟨Nat.le_refl _, hz _ _ _⟩

/-- Places of socket `t`. -/
def Sys.own (s : Sys) (t : Nat) : Nat := s.sh.own t + (s.pcs.flatMap Pc.held).count t

theorem reach_own {limit n : Nat} {s : Sys} (h : Reach limit n s) (t : Nat) :
    1 ≤ s.sh.next ∧ s.own t = if t < s.sh.next then 1 else 0 := by
  induction h with
  | init =>
    refine ⟨Nat.le_refl _, ?_⟩
    have : ∀ k : Nat, (List.replicate k Pc.want).flatMap Pc.held = [] := by
      intro k
      induction k with
      | zero => rfl
      | succ k ih => rw [List.replicate_succ, List.flatMap_cons, ih]; rfl
    have e : (init n).sh.next = 1 := rfl
    rw [e]
    simp only [Sys.own, init, this, Sh.own, socks, List.map_cons, List.map_nil, List.count_cons, List.count_nil, beq_iff_eq]
    by_cases ht : 0 = t
    · rw [if_pos ht, if_pos (by omega)]
    · rw [if_neg ht, if_neg (by omega)]
  | step _ hs ih =>
    cases hs with
    | thread x x' p p' a b ht =>
      obtain ⟨h1, h2⟩ := tstep_own ht t
      obtain ⟨i1, i2⟩ := ih
      simp only [Sys.own, List.flatMap_append, List.flatMap_cons, List.count_append] at i2 ⊢
      refine ⟨by simp only at i1; omega, ?_⟩
      by_cases c1 : t < x.next
      · rw [if_pos c1] at i2
        rw [if_neg (by omega)] at h2
        rw [if_pos (by omega)]
        omega
      · rw [if_neg c1] at i2
        by_cases c2 : t < x'.next
        · rw [if_pos (by omega)] at h2
          rw [if_pos c2]
          omega
        · rw [if_neg (by omega)] at h2
          rw [if_neg c2]
          omega
    | shutdown => exact ih
    | tell => exact ih
    | tellFull => exact ih

/-- The listening socket is not handled as a connection, and not closed. -/
structure Lst (s : Sys) : Prop where
  ret : 0 ∉ s.sh.returned
  freed : 0 ∉ s.sh.freed
  run : Pc.run 0 ∉ s.pcs

theorem tstep_lst {limit : Nat} {x x' : Sh} {p p' : Pc} (h : TStep limit x p x' p') (hn : 1 ≤ x.next)
    (h1 : 0 ∉ x.returned) (h2 : 0 ∉ x.freed) (h3 : p ≠ .run 0) : 0 ∉ x'.returned ∧ 0 ∉ x'.freed ∧ p' ≠ .run 0 := by
  cases h with
  | take s r hr =>
    refine ⟨fun hm => h1 ?_, h2, by simp⟩
    rw [hr]
    exact List.mem_cons_of_mem _ hm
  | limit =>
    refine ⟨h1, ?_, by simp⟩
    simp only [List.mem_append, not_or]
    exact ⟨h2, limited_zero _ _⟩
  | accept => exact ⟨h1, h2, by simp; omega⟩
  | closed s hs => exact ⟨h1, by simp only [List.mem_append, List.mem_singleton, not_or]; exact ⟨h2, fun h => hs h.symm⟩, by simp⟩
  | input s hs => exact ⟨h1, h2, by simpa using hs⟩
  | fail s => exact ⟨h1, by
      simp only [List.mem_append, List.mem_singleton, not_or]
      exact ⟨h2, fun h => h3 (by rw [h])⟩, by simp⟩
  | ok s => exact ⟨by
      simp only [List.mem_append, List.mem_singleton, not_or]
      exact ⟨h1, fun h => h3 (by rw [h])⟩, h2, by simp⟩
  | _ => exact ⟨h1, h2, by simp⟩

theorem reach_lst {limit n : Nat} {s : Sys} (h : Reach limit n s) : Lst s := by
  induction h with
  | init => exact ⟨by simp [init], by simp [init], by simp [init, List.mem_replicate]⟩
  | step hr hs ih =>
    have hn := (reach_own hr 0).1
    cases hs with
    | thread x x' p p' a b ht =>
      obtain ⟨i1, i2, i3⟩ := ih
      simp only [List.mem_append, List.mem_cons, not_or] at i3
      obtain ⟨r1, r2, r3⟩ := tstep_lst ht hn i1 i2 (fun h => i3.2.1 h.symm)
      refine ⟨r1, r2, ?_⟩
      simp only [List.mem_append, List.mem_cons, not_or]
      exact ⟨i3.1, fun h => r3 h.symm, i3.2.2⟩
    | shutdown => exact ⟨ih.1, ih.2, ih.3⟩
    | tell => exact ⟨ih.1, ih.2, ih.3⟩
    | tellFull => exact ⟨ih.1, ih.2, ih.3⟩

/-- Number of threads in code for which the lock is needed. -/
def locks (ps : List Pc) : Nat := ps.countP Pc.locked

theorem reach_lock {limit n : Nat} {s : Sys} (h : Reach limit n s) : locks s.pcs = if s.sh.lock then 1 else 0 := by
  induction h with
  | init =>
    have : ∀ k : Nat, locks (List.replicate k Pc.want) = 0 := by
      intro k
      simp [locks, List.countP_replicate, Pc.locked]
    exact this n
  | step _ hs ih =>
    cases hs with
    | thread x x' p p' a b ht =>
      simp only [locks, List.countP_append, List.countP_cons] at ih ⊢
      cases ht with
      | enter hl =>
        simp only [hl, Pc.locked, Bool.false_eq_true, ↓reduceIte] at ih ⊢
        omega
      | stop => cases hl : x.lock <;> simp only [hl, Pc.locked, Bool.false_eq_true, ↓reduceIte] at ih ⊢ <;> omega
      | accept => cases hl : x.lock <;> simp only [hl, Pc.locked, Bool.false_eq_true, ↓reduceIte] at ih ⊢ <;> omega
      | input => cases hl : x.lock <;> simp only [hl, Pc.locked, Bool.false_eq_true, ↓reduceIte] at ih ⊢ <;> omega
      | _ => exact ih
    | shutdown => exact ih
    | tell => exact ih
    | tellFull => exact ih

/-- Another thread does not have the lock if `p` has it. -/
theorem other_unlocked {a b : List Pc} {p : Pc} {l : Bool} (h : locks (a ++ p :: b) = if l then 1 else 0) (hp : p.locked = true) :
    ∀ q, q ∈ a ∨ q ∈ b → q.locked = false := by
  have h1 : locks (a ++ p :: b) ≤ 1 := by rw [h]; split <;> omega
  simp only [locks, List.countP_append, List.countP_cons, hp, if_pos] at h1
  intro q hq
  cases hl : q.locked with
  | false => rfl
  | true =>
    rcases hq with hq | hq
    · have := List.countP_pos_iff.2 ⟨q, hq, hl⟩
      omega
    · have := List.countP_pos_iff.2 ⟨q, hq, hl⟩
      omega

/-- The thread does not take returned sockets before it waits for events. -/
def Pc.late : Pc → Bool
  | .limit | .pop | .got _ => true
  | _ => false

/-- The thread does not check for the end before it waits for events. -/
def Pc.inside : Pc → Bool
  | .drain | .limit | .pop | .got _ => true
  | _ => false

theorem late_locked {p : Pc} (h : p.late = true) : p.locked = true := by cases p <;> first | rfl | cases h

theorem inside_locked {p : Pc} (h : p.inside = true) : p.locked = true := by cases p <;> first | rfl | cases h

/-- Nobody sleeps who has to wake up. -/
structure Awake (s : Sys) : Prop where
  ret : ∀ p, p ∈ s.pcs → p.late = true → s.sh.returned ≠ [] → 0 < s.sh.sig ∨ Pc.signal ∈ s.pcs
  told : s.sh.told = true → s.sh.shutdown = true
  stop : s.sh.told = true → ∀ p, p ∈ s.pcs → p.inside = true → 0 < s.sh.sig

theorem awake_thread {limit : Nat} {x x' : Sh} {p p' : Pc} {a b : List Pc} (ht : TStep limit x p x' p')
    (hl : locks (a ++ p :: b) = if x.lock then 1 else 0) (i : Awake ⟨x, a ++ p :: b⟩) : Awake ⟨x', a ++ p' :: b⟩ := by
  obtain ⟨i1, i2, i3⟩ := i
  simp only at i1 i2 i3
  have hmem : ∀ (q r : Pc), q ∈ a ++ r :: b ↔ (q ∈ a ∨ q ∈ b) ∨ q = r := by
    intro q r
    simp only [List.mem_append, List.mem_cons]
    constructor
    · rintro (h | h | h)
      · exact Or.inl (Or.inl h)
      · exact Or.inr h
      · exact Or.inl (Or.inr h)
    · rintro ((h | h) | h)
      · exact Or.inl h
      · exact Or.inr (Or.inr h)
      · exact Or.inr (Or.inl h)
  simp only [hmem] at i1 i3
  -- the thread stays in late/inside code, signals and returned sockets are as before
  have keep : ∀ (y : Sh), y.sig = x.sig → y.returned = x.returned → y.told = x.told → y.shutdown = x.shutdown →
      p ≠ .signal → (p'.late = true → p.late = true ∨ x.returned = []) → (p'.inside = true → p.inside = true ∨ x.told = false) →
      Awake ⟨y, a ++ p' :: b⟩ := by
    intro y e1 e2 e3 e4 hs hlate hin
    refine ⟨?_, ?_, ?_⟩
    · intro q hq hql hr
      simp only [hmem] at hq
      simp only at hr
      rw [e2] at hr
      have key : 0 < x.sig ∨ (Pc.signal ∈ a ∨ Pc.signal ∈ b) ∨ Pc.signal = p := by
        rcases hq with hq | hq
        · exact i1 q (Or.inl hq) hql hr
        · rw [hq] at hql
          rcases hlate hql with h | h
          · exact i1 p (Or.inr rfl) h hr
          · exact absurd h hr
      simp only [hmem, e1]
      rcases key with h | h | h
      · exact Or.inl h
      · exact Or.inr (Or.inl h)
      · exact absurd h.symm hs
    · simp only [e3, e4]; exact i2
    · intro htold q hq hqi
      simp only [hmem] at hq
      simp only [e3] at htold
      simp only [e1]
      rcases hq with hq | hq
      · exact i3 htold q (Or.inl hq) hqi
      · rw [hq] at hqi
        rcases hin hqi with h | h
        · exact i3 htold p (Or.inr rfl) h
        · rw [h] at htold; cases htold
  -- no other thread has the lock, and the thread itself is not in such code
  have alone : ∀ (y : Sh), y.told = x.told → y.shutdown = x.shutdown → p.locked = true → p'.late = false → p'.inside = false →
      Awake ⟨y, a ++ p' :: b⟩ := by
    intro y e3 e4 hp h1 h2
    have hu := other_unlocked hl hp
    refine ⟨?_, ?_, ?_⟩
    · intro q hq hql
      simp only [hmem] at hq
      rcases hq with hq | hq
      · have := late_locked hql
        rw [hu q hq] at this
        cases this
      · rw [hq, h1] at hql; cases hql
    · simp only [e3, e4]; exact i2
    · intro _ q hq hql
      simp only [hmem] at hq
      rcases hq with hq | hq
      · have := inside_locked hql
        rw [hu q hq] at this
        cases this
      · rw [hq, h2] at hql; cases hql
  have notold : x.shutdown = false → x.told = false := by
    intro h
    cases ht : x.told with
    | false => rfl
    | true => rw [i2 ht] at h; cases h
  cases ht with
  | enter => exact keep _ rfl rfl rfl rfl (by simp) (by simp [Pc.late]) (by simp [Pc.inside])
  | stop => exact keep _ rfl rfl rfl rfl (by simp) (by simp [Pc.late]) (by simp [Pc.inside])
  | go h => exact keep _ rfl rfl rfl rfl (by simp) (by simp [Pc.late]) (fun _ => Or.inr (notold h))
  | take s r hr =>
    have hu := other_unlocked hl rfl
    refine ⟨?_, i2, ?_⟩
    · intro q hq hql
      simp only [hmem] at hq
      rcases hq with hq | hq
      · have := late_locked hql
        rw [hu q hq] at this
        cases this
      · rw [hq] at hql; cases hql
    · intro htold q hq hqi
      simp only [hmem] at hq
      exact i3 htold q hq hqi
  | drained h => exact keep _ rfl rfl rfl rfl (by simp) (fun _ => Or.inr h) (fun _ => Or.inl rfl)
  | limit => exact keep _ rfl rfl rfl rfl (by simp) (fun _ => Or.inl rfl) (fun _ => Or.inl rfl)
  | poll => exact keep _ rfl rfl rfl rfl (by simp) (fun _ => Or.inl rfl) (fun _ => Or.inl rfl)
  | popSignal => exact keep _ rfl rfl rfl rfl (by simp) (by simp [Pc.late]) (by simp [Pc.inside])
  | popSock => exact keep _ rfl rfl rfl rfl (by simp) (fun _ => Or.inl rfl) (fun _ => Or.inl rfl)
  | receive => exact alone _ rfl rfl rfl rfl rfl
  | cleared => exact keep _ rfl rfl rfl rfl (by simp) (by simp [Pc.late]) (by simp [Pc.inside])
  | accept => exact keep _ rfl rfl rfl rfl (by simp) (by simp [Pc.late]) (by simp [Pc.inside])
  | noAccept => exact keep _ rfl rfl rfl rfl (by simp) (by simp [Pc.late]) (by simp [Pc.inside])
  | closed => exact keep _ rfl rfl rfl rfl (by simp) (by simp [Pc.late]) (by simp [Pc.inside])
  | input => exact keep _ rfl rfl rfl rfl (by simp) (by simp [Pc.late]) (by simp [Pc.inside])
  | fail => exact keep _ rfl rfl rfl rfl (by simp) (by simp [Pc.late]) (by simp [Pc.inside])
  | ok s =>
    refine ⟨fun _ _ _ _ => Or.inr ((hmem _ _).2 (Or.inr rfl)), i2, ?_⟩
    intro htold q hq hqi
    simp only [hmem] at hq
    rcases hq with hq | hq
    · exact i3 htold q (Or.inl hq) hqi
    · rw [hq] at hqi; cases hqi
  | send => exact ⟨fun _ _ _ _ => Or.inl (Nat.succ_pos _), i2, fun _ _ _ _ => Nat.succ_pos _⟩
  | sendFull h => exact ⟨fun _ _ _ _ => Or.inl h, i2, fun _ _ _ _ => h⟩

theorem reach_awake {limit n : Nat} {s : Sys} (h : Reach limit n s) : Awake s := by
  induction h with
  | init => exact ⟨fun _ _ _ h => absurd rfl h, fun h => (by cases h), fun h => (by cases h)⟩
  | step hr hs ih =>
    have hl := reach_lock hr
    cases hs with
    | thread x x' p p' a b ht => exact awake_thread ht hl ih
    | shutdown => exact ⟨ih.1, fun _ => rfl, ih.3⟩
    | tell _ _ h1 => exact ⟨fun _ _ _ _ => Or.inl (Nat.succ_pos _), fun _ => h1, fun _ _ _ _ => Nat.succ_pos _⟩
    | tellFull _ _ h1 _ h2 => exact ⟨fun _ _ _ _ => Or.inl h2, fun _ => h1, fun _ _ _ _ => h2⟩

end Laik.Sv
