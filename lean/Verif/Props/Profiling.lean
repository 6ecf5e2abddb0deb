import Verif.Model.ProfilingLemmas
/-!
# C66: profiling
-/

namespace Laik.Pf

/-- C66: exact condition under which a sequence of calls does no wrong access. -/
theorem C66_faults (l : List Op) : (∃ y, run {} l = .ok y) ↔ Safe [] l := by
  have key : ∀ (l : List Op) (h : List Op) (x : St), Inv h x → ((∃ y, run x l = .ok y) ↔ Safe h l) := by
    intro l
    induction l with
    | nil => exact fun h x _ => ⟨fun _ => trivial, fun _ => ⟨x, rfl⟩⟩
    | cons o l ih =>
      intro h x v
      constructor
      · rintro ⟨y, hy⟩
        obtain ⟨z, hz, h2⟩ := bind_ok.1 hy
        exact ⟨(step_ok v o).1 ⟨z, hz⟩, (ih _ z (step_inv v o hz)).1 ⟨y, h2⟩⟩
      · rintro ⟨h1, h2⟩
        obtain ⟨z, hz⟩ := (step_ok v o).2 h1
        obtain ⟨y, hy⟩ := (ih _ z (step_inv v o hz)).2 h2
        exact ⟨y, bind_ok.2 ⟨z, hz, hy⟩⟩
  exact key l [] {} inv_nil

/-- C66: closed files are never used. -/
theorem C66_no_closed_file (l : List Op) : run {} l ≠ .error .closedFile := by
  have getE : ∀ (x : St) (i : Nat), x.get i ≠ .error .closedFile := by
    intro x i he
    unfold St.get at he
    split at he <;> cases he
  have bindE : ∀ {α β : Type} (a : Except Fault α) (f : α → Except Fault β), a ≠ .error .closedFile →
      (∀ c, a = .ok c → f c ≠ .error .closedFile) → a.bind f ≠ .error .closedFile := by
    intro α β a f h1 h2
    cases a with
    | error e => intro h3; exact h1 (by cases h3; rfl)
    | ok c => exact h2 c rfl
  have wr : ∀ {h : List Op} {x : St} (v : Inv h x) {i f : Nat} {c : Ctrl}, x.get i = .ok c → c.file = some f → x.write (some f) = .ok () := by
    intro h x v i f c hc hf
    obtain ⟨_, rfl⟩ := (get_ok v).1 hc
    exact write_ok v hf
  have leaveE : ∀ x : St, x.leave ≠ .error .closedFile := by
    intro x
    unfold St.leave
    split
    · intro h; cases h
    · exact bindE _ _ (getE _ _) (fun c _ h => by cases h)
  have cl : ∀ {h : List Op} {x : St} (v : Inv h x) (i : Nat), closeFile x i ≠ .error .closedFile := by
    intro h x v i
    refine bindE _ _ (getE _ _) ?_
    intro c hc
    cases hf : c.file with
    | none => intro h; cases h
    | some f => exact bindE _ _ (by rw [wr v hc hf]; simp) (fun _ _ h => by cases h)
  have st : ∀ {h : List Op} {x : St} (v : Inv h x) (o : Op), step x o ≠ .error .closedFile := by
    intro h x v o
    cases o with
    | enable i =>
      simp only [step, enable]
      split
      · intro h; cases h
      · refine bindE _ _ (leaveE _) ?_
        intro z _
        cases i with
        | none => intro h; cases h
        | some a => exact bindE _ _ (getE _ _) (fun c _ h => by cases h)
    | enableFile i ok =>
      simp only [step, enableFile]
      split
      · intro h; cases h
      · refine bindE _ _ (leaveE _) ?_
        intro z _
        cases i with
        | none => intro h; cases h
        | some a => exact bindE _ _ (getE _ _) (fun c _ h => by cases ok <;> cases h)
    | reset i =>
      simp only [step, reset]
      split
      · exact bindE _ _ (getE _ _) (fun c _ h => by split at h <;> cases h)
      · intro h; cases h
    | userStart i now =>
      simp only [step, userStart]
      split
      · exact bindE _ _ (getE _ _) (fun c _ h => by split at h <;> cases h)
      · intro h; cases h
    | userStop i now =>
      simp only [step, userStop]
      split
      · exact bindE _ _ (getE _ _) (fun c _ h => by split at h <;> cases h)
      · intro h; cases h
    | exec i t1 t2 => exact bindE _ _ (getE _ _) (fun c _ h => by split at h <;> cases h)
    | getTime =>
      simp only [step, times]
      cases x.cur with
      | none => intro h; cases h
      | some i =>
        have := getE x i
        cases hg : x.get i with
        | error e =>
          intro h
          rw [hg] at this
          simp only [hg] at h
          cases h
          exact this rfl
        | ok c => intro h; simp only [hg] at h; cases h
    | writeout =>
      simp only [step, writeout]
      split
      · intro h; cases h
      · refine bindE _ _ (getE _ _) ?_
        intro c hc
        cases hf : c.file with
        | none => intro h; cases h
        | some f => exact bindE _ _ (by rw [wr v hc hf]; simp) (fun _ _ h => by cases h)
    | closeFile i => exact cl v i
    | printf =>
      simp only [step, printf]
      split
      · intro h; cases h
      · refine bindE _ _ (getE _ _) ?_
        intro c hc
        cases hf : c.file with
        | none => intro h; cases h
        | some f => exact bindE _ _ (by rw [wr v hc hf]; simp) (fun _ _ h => by cases h)
    | finalize i => exact bindE _ _ (cl v i) (fun _ _ h => by cases h)
  have key : ∀ (l : List Op) (h : List Op) (x : St), Inv h x → run x l ≠ .error .closedFile := by
    intro l
    induction l with
    | nil => intro h x _ he; cases he
    | cons o l ih =>
      intro h x v
      exact bindE _ _ (st v o) (fun z hz => ih _ z (step_inv v o hz))
  exact key l [] {} inv_nil

/-- C66: at most one instance is measured, the one for which this was requested last. -/
theorem C66_one_measured {l : List Op} {y : St} (hy : run {} l = .ok y) (i : Nat) :
    (y.ctrl i).doProf = true ↔ curr l.reverse = some i := by
  have v := run_inv inv_nil l hy
  rw [List.append_nil] at v
  rw [← v.cur]
  exact v.prof i

/-- Effect of one call on the backend time of an instance which is measured. -/
theorem step_keeps {h : List Op} {x y : St} (v : Inv h x) {i : Nat} (hc : x.cur = some i) {o : Op} (hk : Keeps i o) (hy : step x o = .ok y) :
    y.cur = some i ∧ (y.ctrl i).timeBackend = (x.ctrl i).timeBackend + backendTime i [o] ∧
    (¬ User i o → (y.ctrl i).timeUser = (x.ctrl i).timeUser ∧ (y.ctrl i).timerUser = (x.ctrl i).timerUser ∧ (y.ctrl i).userActive = (x.ctrl i).userActive) := by
  have other : ∀ (j : Nat), j ≠ i → x.cur ≠ some j := by
    intro j hj he
    rw [hc] at he
    cases he
    exact hj rfl
  cases o with
  | enable j =>
    cases hk
    simp only [step, enable, hc, Option.isSome_some, true_and, ↓reduceIte] at hy
    cases hy
    exact ⟨hc, rfl, fun _ => ⟨rfl, rfl, rfl⟩⟩
  | enableFile j ok =>
    cases hk
    simp only [step, enableFile, hc, Option.isSome_some, true_and, ↓reduceIte] at hy
    cases hy
    exact ⟨hc, rfl, fun _ => ⟨rfl, rfl, rfl⟩⟩
  | reset j =>
    simp only [step, reset] at hy
    rw [if_neg (other j hk)] at hy
    cases hy
    exact ⟨hc, rfl, fun _ => ⟨rfl, rfl, rfl⟩⟩
  | userStart j now =>
    simp only [step, userStart] at hy
    by_cases hj : j = i
    · subst hj
      rw [if_pos hc] at hy
      obtain ⟨c, hg, h2⟩ := bind_ok.1 hy
      obtain ⟨_, rfl⟩ := (get_ok v).1 hg
      split at h2
      · cases h2
        exact ⟨hc, by rw [set_same]; rfl, fun hu => absurd rfl hu⟩
      · cases h2
        exact ⟨hc, rfl, fun _ => ⟨rfl, rfl, rfl⟩⟩
    · rw [if_neg (other j hj)] at hy
      cases hy
      exact ⟨hc, rfl, fun _ => ⟨rfl, rfl, rfl⟩⟩
  | userStop j now =>
    simp only [step, userStop] at hy
    by_cases hj : j = i
    · subst hj
      rw [if_pos hc] at hy
      obtain ⟨c, hg, h2⟩ := bind_ok.1 hy
      obtain ⟨_, rfl⟩ := (get_ok v).1 hg
      split at h2
      · cases h2
        exact ⟨hc, by rw [set_same]; rfl, fun hu => absurd rfl hu⟩
      · cases h2
        exact ⟨hc, rfl, fun _ => ⟨rfl, rfl, rfl⟩⟩
    · rw [if_neg (other j hj)] at hy
      cases hy
      exact ⟨hc, rfl, fun _ => ⟨rfl, rfl, rfl⟩⟩
  | exec j t1 t2 =>
    obtain ⟨c, hg, h2⟩ := bind_ok.1 hy
    obtain ⟨_, rfl⟩ := (get_ok v).1 hg
    by_cases hj : j = i
    · subst hj
      rw [if_pos ((v.prof j).2 hc)] at h2
      cases h2
      refine ⟨hc, ?_, fun _ => ?_⟩
      · rw [set_same]; simp [backendTime]
      · rw [set_same]; exact ⟨rfl, rfl, rfl⟩
    · rw [if_neg (fun hp => other j hj ((v.prof j).1 hp))] at h2
      cases h2
      exact ⟨hc, by simp [backendTime, hj], fun _ => ⟨rfl, rfl, rfl⟩⟩
  | getTime =>
    simp only [step] at hy
    cases ht : times x with
    | error e => rw [ht] at hy; cases hy
    | ok t => rw [ht] at hy; cases hy; exact ⟨hc, rfl, fun _ => ⟨rfl, rfl, rfl⟩⟩
  | writeout =>
    simp only [step, writeout, hc] at hy
    obtain ⟨c, hg, h2⟩ := bind_ok.1 hy
    cases hf : c.file with
    | none => simp only [hf] at h2; cases h2; exact ⟨hc, rfl, fun _ => ⟨rfl, rfl, rfl⟩⟩
    | some f =>
      simp only [hf] at h2
      obtain ⟨_, _, h3⟩ := bind_ok.1 h2
      cases h3
      exact ⟨rfl, rfl, fun _ => ⟨rfl, rfl, rfl⟩⟩
  | closeFile j =>
    obtain ⟨_, _, _, h4, h5, _, h7⟩ := closeFile_inv v j hy
    refine ⟨h7.trans hc, ?_⟩
    by_cases hj : i = j
    · subst hj; rw [h5]; exact ⟨rfl, fun _ => ⟨rfl, rfl, rfl⟩⟩
    · rw [h4 i hj]; exact ⟨rfl, fun _ => ⟨rfl, rfl, rfl⟩⟩
  | printf =>
    simp only [step, printf, hc] at hy
    obtain ⟨c, hg, h2⟩ := bind_ok.1 hy
    cases hf : c.file with
    | none => simp only [hf] at h2; cases h2; exact ⟨hc, rfl, fun _ => ⟨rfl, rfl, rfl⟩⟩
    | some f =>
      simp only [hf] at h2
      obtain ⟨_, _, h3⟩ := bind_ok.1 h2
      cases h3
      exact ⟨hc, rfl, fun _ => ⟨rfl, rfl, rfl⟩⟩
  | finalize j =>
    obtain ⟨z, hz, h2⟩ := bind_ok.1 hy
    cases h2
    obtain ⟨_, _, _, h4, h5, _, h7⟩ := closeFile_inv v j hz
    refine ⟨h7.trans hc, ?_⟩
    show (z.ctrl i).timeBackend = _ ∧ (_ → (z.ctrl i).timeUser = _ ∧ (z.ctrl i).timerUser = _ ∧ (z.ctrl i).userActive = _)
    by_cases hj : i = j
    · subst hj; rw [h5]; exact ⟨rfl, fun _ => ⟨rfl, rfl, rfl⟩⟩
    · rw [h4 i hj]; exact ⟨rfl, fun _ => ⟨rfl, rfl, rfl⟩⟩

theorem backendTime_cons (i : Nat) (o : Op) (l : List Op) : backendTime i (o :: l) = backendTime i [o] + backendTime i l := by
  cases o <;> simp [backendTime]

theorem run_keeps {h : List Op} {x y : St} (v : Inv h x) {i : Nat} (hc : x.cur = some i) {l : List Op} (hk : ∀ o ∈ l, Keeps i o)
    (hy : run x l = .ok y) :
    y.cur = some i ∧ (y.ctrl i).timeBackend = (x.ctrl i).timeBackend + backendTime i l ∧
    ((∀ o ∈ l, ¬ User i o) → (y.ctrl i).timeUser = (x.ctrl i).timeUser ∧ (y.ctrl i).timerUser = (x.ctrl i).timerUser ∧
      (y.ctrl i).userActive = (x.ctrl i).userActive) := by
  induction l generalizing h x with
  | nil => cases hy; exact ⟨hc, rfl, fun _ => ⟨rfl, rfl, rfl⟩⟩
  | cons o l ih =>
    obtain ⟨z, hz, h2⟩ := bind_ok.1 hy
    obtain ⟨h3, h4, h5⟩ := step_keeps v hc (hk o List.mem_cons_self) hz
    obtain ⟨h6, h7, h8⟩ := ih (step_inv v o hz) h3 (fun o ho => hk o (List.mem_cons_of_mem _ ho)) h2
    refine ⟨h6, by have := backendTime_cons i o l; omega, fun hu => ?_⟩
    obtain ⟨a1, a2, a3⟩ := h5 (hu o List.mem_cons_self)
    obtain ⟨b1, b2, b3⟩ := h8 (fun o ho => hu o (List.mem_cons_of_mem _ ho))
    exact ⟨b1.trans a1, b2.trans a2, b3.trans a3⟩

theorem step_begins {h : List Op} {x y : St} (v : Inv h x) {i : Nat} {o : Op} (hb : Begins h i o) (hy : step x o = .ok y) :
    y.cur = some i ∧ (y.ctrl i).timeBackend = 0 := by
  cases o with
  | enable j =>
    obtain ⟨rfl, hn⟩ := hb
    simp only [step, enable] at hy
    rw [if_neg (fun e => hn (by rw [← v.cur]; exact e.2))] at hy
    obtain ⟨z, _, h2⟩ := bind_ok.1 hy
    obtain ⟨c, _, h3⟩ := bind_ok.1 h2
    cases h3
    exact ⟨rfl, by show ((z.set i _).ctrl i).timeBackend = 0; rw [set_same]⟩
  | enableFile j ok =>
    obtain ⟨rfl, hn⟩ := hb
    simp only [step, enableFile] at hy
    rw [if_neg (fun e => hn (by rw [← v.cur]; exact e.2))] at hy
    obtain ⟨z, _, h2⟩ := bind_ok.1 hy
    obtain ⟨c, _, h3⟩ := bind_ok.1 h2
    cases ok with
    | false => exact absurd h3 (by simp)
    | true =>
      cases h3
      exact ⟨rfl, by rw [set_same]⟩
  | reset j =>
    obtain ⟨rfl, hc⟩ := hb
    rw [← v.cur] at hc
    simp only [step, reset] at hy
    rw [if_pos hc] at hy
    obtain ⟨c, hg, h2⟩ := bind_ok.1 hy
    obtain ⟨_, rfl⟩ := (get_ok v).1 hg
    rw [if_pos ((v.prof j).2 hc)] at h2
    cases h2
    exact ⟨hc, by rw [set_same]⟩
  | _ => exact hb.elim

/-- C66: the backend time is the time spent in the backend for the instance since the
measurement began. -/
theorem C66_backend {pre post : List Op} {o : Op} {i : Nat} {y : St} (hb : Begins pre.reverse i o) (hk : ∀ q ∈ post, Keeps i q)
    (hg : ¬ Gone (pre ++ o :: post) i) (hy : run {} (pre ++ o :: post) = .ok y) :
    ∃ t, times y = .ok (t, backendTime i post) := by
  have vy := run_inv inv_nil _ hy
  rw [List.append_nil] at vy
  rw [run_append] at hy
  obtain ⟨x, hx, h2⟩ := bind_ok.1 hy
  obtain ⟨z, hz, h3⟩ := bind_ok.1 h2
  have v := run_inv inv_nil _ hx
  rw [List.append_nil] at v
  obtain ⟨b1, b2⟩ := step_begins v hb hz
  obtain ⟨k1, k2, _⟩ := run_keeps (step_inv v o hz) b1 hk h3
  rw [b2, Nat.zero_add] at k2
  have hd : ¬ Gone (pre ++ o :: post).reverse i := by
    unfold Gone at hg ⊢
    rwa [List.mem_reverse]
  refine ⟨(y.ctrl i).timeTotal, ?_⟩
  unfold times
  rw [k1, ← k2]
  have hgt : y.get i = .ok (y.ctrl i) := (get_ok vy).2 ⟨hd, rfl⟩
  simp only [hgt]
  rfl

/-- C66, part for user time: it is the time of the last interval.  The claim asks for the
sum of intervals since the measurement began. -/
theorem C66_user_partial {pre mid post : List Op} {i s e : Nat} {y : St} (hc : curr pre.reverse = some i)
    (hm : ∀ q ∈ mid, Keeps i q ∧ ¬ User i q) (hp : ∀ q ∈ post, Keeps i q ∧ ¬ User i q)
    (hy : run {} (pre ++ .userStart i s :: (mid ++ .userStop i e :: post)) = .ok y) : (y.ctrl i).timeUser = e - s := by
  rw [run_append] at hy
  obtain ⟨x, hx, h2⟩ := bind_ok.1 hy
  obtain ⟨z, hz, h3⟩ := bind_ok.1 h2
  have v := run_inv inv_nil _ hx
  rw [List.append_nil] at v
  have vz := step_inv v _ hz
  have hcx : x.cur = some i := v.cur.trans hc
  have hzc := (step_keeps v hcx (o := .userStart i s) trivial hz).1
  have hz' : (z.ctrl i).timerUser = s ∧ (z.ctrl i).userActive = true := by
    simp only [step, userStart] at hz
    rw [if_pos hcx] at hz
    obtain ⟨c, hg, h2⟩ := bind_ok.1 hz
    obtain ⟨_, rfl⟩ := (get_ok v).1 hg
    rw [if_pos ((v.prof i).2 hcx)] at h2
    cases h2
    rw [set_same]
    exact ⟨rfl, rfl⟩
  rw [run_append] at h3
  obtain ⟨w, hw, h4⟩ := bind_ok.1 h3
  have vw := run_inv vz _ hw
  obtain ⟨m1, _, m3⟩ := run_keeps vz hzc (fun q hq => (hm q hq).1) hw
  obtain ⟨_, m4, m5⟩ := m3 (fun q hq => (hm q hq).2)
  obtain ⟨u, hu, h5⟩ := bind_ok.1 h4
  have vu := step_inv vw _ hu
  have huc := (step_keeps vw m1 (o := .userStop i e) trivial hu).1
  have hu' : (u.ctrl i).timeUser = e - s := by
    simp only [step, userStop] at hu
    rw [if_pos m1] at hu
    obtain ⟨c, hg, h2⟩ := bind_ok.1 hu
    obtain ⟨_, rfl⟩ := (get_ok vw).1 hg
    rw [m5, hz'.2, (vw.prof i).2 m1] at h2
    cases h2
    rw [set_same]
    show e - (w.ctrl i).timerUser = e - s
    rw [m4, hz'.1]
  obtain ⟨_, _, p3⟩ := run_keeps vu huc (fun q hq => (hp q hq).1) h5
  rw [(p3 (fun q hq => (hp q hq).2)).1, hu']

/-- C66 is false for the total time: it is always 0, in particular below the backend
time, which should be part of it. -/
theorem C66_total_zero {l : List Op} {y : St} (hy : run {} l = .ok y) {t b : Nat} (ht : times y = .ok (t, b)) : t = 0 := by
  have v := run_inv inv_nil l hy
  unfold times at ht
  cases hc : y.cur with
  | none => rw [hc] at ht; cases ht; rfl
  | some i =>
    rw [hc] at ht
    obtain ⟨c, hg, h2⟩ := bind_ok.1 ht
    obtain ⟨_, rfl⟩ := (get_ok v).1 hg
    cases h2
    exact v.total i

/-- C66: a line written to the file of the measured instance has the backend time since
the measurement began, and the user time. -/
theorem C66_line {pre post : List Op} {o : Op} {i f : Nat} {x : St} (hb : Begins pre.reverse i o) (hk : ∀ q ∈ post, Keeps i q)
    (hg : ¬ Gone (pre ++ o :: post) i) (hx : run {} (pre ++ o :: post) = .ok x) (hf : (x.ctrl i).file = some f) :
    ∃ y, writeout x = .ok y ∧ y.lines = x.lines ++ [(f, 0, backendTime i post, (x.ctrl i).timeUser)] := by
  obtain ⟨t, ht⟩ := C66_backend hb hk hg hx
  have h0 := C66_total_zero hx ht
  subst h0
  have v := run_inv inv_nil _ hx
  have hc : x.cur = some i := by
    rw [run_append] at hx
    obtain ⟨a, ha, h2⟩ := bind_ok.1 hx
    obtain ⟨z, hz, h3⟩ := bind_ok.1 h2
    have va := run_inv inv_nil _ ha
    rw [List.append_nil] at va
    exact (run_keeps (step_inv va o hz) (step_begins va hb hz).1 hk h3).1
  simp only [times, hc] at ht
  obtain ⟨c, hgt, h2⟩ := bind_ok.1 ht
  obtain ⟨_, rfl⟩ := (get_ok v).1 hgt
  have h3 : ((x.ctrl i).timeTotal, (x.ctrl i).timeBackend) = (0, backendTime i post) := Except.ok.inj h2
  have h4 := congrArg Prod.fst h3
  have h5 := congrArg Prod.snd h3
  simp only at h4 h5
  refine ⟨{ x with lines := x.lines ++ [(f, (x.ctrl i).timeTotal, (x.ctrl i).timeBackend, (x.ctrl i).timeUser)] }, ?_, ?_⟩
  · simp only [writeout, hc]
    refine bind_ok.2 ⟨_, hgt, ?_⟩
    simp only [hf]
    exact bind_ok.2 ⟨(), write_ok v hf, by rw [← hc]; rfl⟩
  · rw [h4, h5]

/-- Result of calls, for cases. -/
def ends (l : List Op) (f : St → Bool) : Bool :=
  match run {} l with
  | .ok y => f y
  | .error _ => false

/-- C66 is false for the total time: a switch which took 7 is not in it. -/
theorem C66_total_fails : ends [.enable (some 0), .exec 0 10 17] (fun y => (times y).toOption == some (0, 7)) = true := by decide +kernel

/-- C66 is false for the user time: with intervals of 3 and 4 it is 4. -/
theorem C66_user_fails : ends [.enable (some 0), .userStart 0 10, .userStop 0 13, .userStart 0 20, .userStop 0 24]
    (fun y => (y.ctrl 0).timeUser == 4) = true := by decide +kernel

/-- C66 is false for the user time: measurement with a file begins with the old user time. -/
theorem C66_user_not_reset : ends [.enable (some 0), .userStart 0 10, .userStop 0 13, .enable none, .enableFile (some 0) true]
    (fun y => (y.ctrl 0).timeUser == 3) = true := by decide +kernel

/-- C66 is false for accesses: an instance is finalized while measured, then the time is
requested, or another instance is to be measured. -/
theorem C66_freed : run {} [.enable (some 0), .finalize 0, .getTime] = .error .freed ∧
    run {} [.enable (some 0), .finalize 0, .enable (some 1)] = .error .freed := ⟨rfl, rfl⟩

/-- C66 is false for accesses: printing without measurement, and files which cannot be
opened. -/
theorem C66_null : run {} [.printf] = .error .noInst ∧ run {} [.enableFile (some 0) false] = .error .noFile := ⟨rfl, rfl⟩

/-- C66: a file requested after measurement without file is on does not get opened, nothing
is written. -/
theorem C66_no_file : ends [.enable (some 0), .enableFile (some 0) true, .exec 0 1 2, .writeout]
    (fun y => decide (y.opened = 0) && y.lines.isEmpty) = true := by decide +kernel

/-- Files which are open. -/
structure FInv (h : List Op) (x : St) : Prop where
  has : ∀ i, (x.ctrl i).file.isSome = true ↔ HasFile i h
  own : ∀ f ∈ x.isOpen, ∃ i, (x.ctrl i).file = some f

theorem step_finv {h : List Op} {x y : St} (v : Inv h x) (w : FInv h x) (o : Op) (hn : NoReopen h [o]) (hy : step x o = .ok y) :
    FInv (o :: h) y := by
  have same : (∀ i, (y.ctrl i).file = (x.ctrl i).file) → y.isOpen = x.isOpen → (∀ i, HasFile i (o :: h) ↔ HasFile i h) → FInv (o :: h) y := by
    intro h1 h2 h3
    refine ⟨fun i => ?_, fun f hf => ?_⟩
    · rw [h1, h3]; exact w.has i
    · rw [h2] at hf
      obtain ⟨i, hi⟩ := w.own f hf
      exact ⟨i, by rw [h1]; exact hi⟩
  have setf : ∀ (a : Nat) (c : Ctrl), c.file = (x.ctrl a).file → ∀ i, ((x.set a c).ctrl i).file = (x.ctrl i).file := by
    intro a c hc i
    by_cases hi : i = a
    · subst hi; rw [set_same]; exact hc
    · rw [set_other _ _ hi]
  have clo : ∀ (a : Nat) (z : St), closeFile x a = .ok z → (∀ i, (z.ctrl i).file.isSome = true ↔ i ≠ a ∧ HasFile i h) ∧
      ∀ f ∈ z.isOpen, ∃ i, (z.ctrl i).file = some f := by
    intro a z hz
    obtain ⟨_, c2, c3, c4, _, _, _⟩ := closeFile_inv v a hz
    refine ⟨fun i => ?_, fun f hf => ?_⟩
    · by_cases hi : i = a
      · subst hi; rw [c2]; simp
      · rw [c4 i hi, w.has i]; simp [hi]
    · have hfx : f ∈ x.isOpen ∧ (x.ctrl a).file ≠ some f := by
        cases ha : (x.ctrl a).file with
        | none => rw [ha] at c3; simp only at c3; rw [c3] at hf; exact ⟨hf, by simp⟩
        | some g =>
          rw [ha] at c3
          simp only at c3
          rw [c3] at hf
          obtain ⟨e1, e2⟩ := v.nodup.mem_erase_iff.1 hf
          exact ⟨e2, fun e => e1 (by cases e; rfl)⟩
      obtain ⟨i, hi⟩ := w.own f hfx.1
      have hia : i ≠ a := fun e => hfx.2 (by rw [← e]; exact hi)
      exact ⟨i, by rw [c4 i hia]; exact hi⟩
  cases o with
  | enable j =>
    simp only [step, enable] at hy
    by_cases hc : x.cur.isSome ∧ x.cur = j
    · rw [if_pos hc] at hy
      cases hy
      exact same (fun _ => rfl) rfl (fun _ => Iff.rfl)
    · rw [if_neg hc] at hy
      obtain ⟨z, hz, h2⟩ := bind_ok.1 hy
      have l := leave_left v hz
      cases j with
      | none => cases h2; exact same l.file l.isOpen (fun _ => Iff.rfl)
      | some a =>
        obtain ⟨c, hg, h3⟩ := bind_ok.1 h2
        obtain ⟨_, rfl⟩ := (l.get v).1 hg
        cases h3
        refine same (fun i => ?_) l.isOpen (fun _ => Iff.rfl)
        show ((z.set a _).ctrl i).file = _
        by_cases hi : i = a
        · subst hi; rw [set_same]; exact l.file i
        · rw [set_other _ _ hi]; exact l.file i
  | enableFile j ok =>
    simp only [step, enableFile] at hy
    by_cases hc : x.cur.isSome ∧ x.cur = j
    · rw [if_pos hc] at hy
      cases hy
      refine same (fun _ => rfl) rfl (fun i => ?_)
      simp only [HasFile]
      constructor
      · rintro (⟨h1, h2⟩ | h1)
        · exact absurd (by rw [← v.cur, hc.2]; exact h1) h2
        · exact h1
      · exact Or.inr
    · rw [if_neg hc] at hy
      obtain ⟨z, hz, h2⟩ := bind_ok.1 hy
      have l := leave_left v hz
      cases j with
      | none =>
        cases h2
        refine same l.file l.isOpen (fun i => ?_)
        simp [HasFile]
      | some a =>
        obtain ⟨c, hg, h3⟩ := bind_ok.1 h2
        obtain ⟨_, rfl⟩ := (l.get v).1 hg
        cases ok with
        | false => exact absurd h3 (by simp)
        | true =>
          have hne : curr h ≠ some a := fun e => hc ⟨by rw [v.cur, e]; rfl, v.cur.trans e⟩
          have hnf : (x.ctrl a).file = none := by
            cases hfa : (x.ctrl a).file with
            | none => rfl
            | some g => exact absurd ((w.has a).1 (by rw [hfa]; rfl)) (hn.1 hne)
          cases h3
          have ea : ∀ i, ((St.set { z with cur := some a, opened := z.opened + 1, isOpen := z.opened :: z.isOpen } a
              { z.ctrl a with doProf := true, timeBackend := 0, timeTotal := 0, file := some z.opened }).ctrl i).file =
              if i = a then some z.opened else (x.ctrl i).file := by
            intro i
            by_cases hi : i = a
            · subst hi; rw [set_same, if_pos rfl]
            · rw [set_other _ _ hi, if_neg hi]; exact l.file i
          refine ⟨fun i => ?_, fun f hf => ?_⟩
          · rw [ea]
            by_cases hi : i = a
            · subst hi
              rw [if_pos rfl]
              exact ⟨fun _ => Or.inl ⟨rfl, hne⟩, fun _ => rfl⟩
            · rw [if_neg hi, w.has i]
              exact ⟨Or.inr, fun e => e.resolve_left (fun e => hi (by cases e.1; rfl))⟩
          · replace hf : f ∈ z.opened :: z.isOpen := hf
            rcases List.mem_cons.1 hf with rfl | hf
            · exact ⟨a, by rw [ea, if_pos rfl]⟩
            · rw [l.isOpen] at hf
              obtain ⟨i, hi⟩ := w.own f hf
              have hia : i ≠ a := fun e => by rw [e, hnf] at hi; cases hi
              exact ⟨i, by rw [ea, if_neg hia]; exact hi⟩
  | reset j =>
    simp only [step, reset] at hy
    split at hy
    · obtain ⟨c, hg, h2⟩ := bind_ok.1 hy
      obtain ⟨_, rfl⟩ := (get_ok v).1 hg
      split at h2
      · cases h2; exact same (setf _ _ rfl) rfl (fun _ => Iff.rfl)
      · cases h2; exact same (fun _ => rfl) rfl (fun _ => Iff.rfl)
    · cases hy; exact same (fun _ => rfl) rfl (fun _ => Iff.rfl)
  | userStart j now =>
    simp only [step, userStart] at hy
    split at hy
    · obtain ⟨c, hg, h2⟩ := bind_ok.1 hy
      obtain ⟨_, rfl⟩ := (get_ok v).1 hg
      split at h2
      · cases h2; exact same (setf _ _ rfl) rfl (fun _ => Iff.rfl)
      · cases h2; exact same (fun _ => rfl) rfl (fun _ => Iff.rfl)
    · cases hy; exact same (fun _ => rfl) rfl (fun _ => Iff.rfl)
  | userStop j now =>
    simp only [step, userStop] at hy
    split at hy
    · obtain ⟨c, hg, h2⟩ := bind_ok.1 hy
      obtain ⟨_, rfl⟩ := (get_ok v).1 hg
      split at h2
      · cases h2; exact same (setf _ _ rfl) rfl (fun _ => Iff.rfl)
      · cases h2; exact same (fun _ => rfl) rfl (fun _ => Iff.rfl)
    · cases hy; exact same (fun _ => rfl) rfl (fun _ => Iff.rfl)
  | exec j t1 t2 =>
    obtain ⟨c, hg, h2⟩ := bind_ok.1 hy
    obtain ⟨_, rfl⟩ := (get_ok v).1 hg
    split at h2
    · cases h2; exact same (setf _ _ rfl) rfl (fun _ => Iff.rfl)
    · cases h2; exact same (fun _ => rfl) rfl (fun _ => Iff.rfl)
  | getTime =>
    simp only [step] at hy
    cases ht : times x with
    | error e => rw [ht] at hy; cases hy
    | ok t => rw [ht] at hy; cases hy; exact same (fun _ => rfl) rfl (fun _ => Iff.rfl)
  | writeout =>
    simp only [step, writeout] at hy
    split at hy
    · cases hy; exact same (fun _ => rfl) rfl (fun _ => Iff.rfl)
    · obtain ⟨c, hg, h2⟩ := bind_ok.1 hy
      cases hf : c.file with
      | none => simp only [hf] at h2; cases h2; exact same (fun _ => rfl) rfl (fun _ => Iff.rfl)
      | some f =>
        simp only [hf] at h2
        obtain ⟨_, _, h3⟩ := bind_ok.1 h2
        cases h3
        exact same (fun _ => rfl) rfl (fun _ => Iff.rfl)
  | closeFile j =>
    obtain ⟨c1, c2⟩ := clo j y hy
    exact ⟨fun i => (c1 i).trans ⟨fun e => ⟨e.1.symm, e.2⟩, fun e => ⟨e.1.symm, e.2⟩⟩, c2⟩
  | printf =>
    simp only [step, printf] at hy
    split at hy
    · cases hy
    · obtain ⟨c, hg, h2⟩ := bind_ok.1 hy
      cases hf : c.file with
      | none => simp only [hf] at h2; cases h2; exact same (fun _ => rfl) rfl (fun _ => Iff.rfl)
      | some f =>
        simp only [hf] at h2
        obtain ⟨_, _, h3⟩ := bind_ok.1 h2
        cases h3
        exact same (fun _ => rfl) rfl (fun _ => Iff.rfl)
  | finalize j =>
    obtain ⟨z, hz, h2⟩ := bind_ok.1 hy
    cases h2
    obtain ⟨c1, c2⟩ := clo j z hz
    exact ⟨fun i => (c1 i).trans ⟨fun e => ⟨e.1.symm, e.2⟩, fun e => ⟨e.1.symm, e.2⟩⟩, c2⟩

theorem noReopen_cons {h : List Op} {o : Op} {l : List Op} (hn : NoReopen h (o :: l)) : NoReopen h [o] ∧ NoReopen (o :: h) l := by
  cases o with
  | enableFile j ok =>
    cases j with
    | none => exact ⟨trivial, hn⟩
    | some i => exact ⟨⟨hn.1, trivial⟩, hn.2⟩
  | _ => exact ⟨trivial, hn⟩

/-- C66, part for files: if no instance gets a second file while it has one, all files are
closed at the end, when instances with files are finalized. -/
theorem C66_files_partial {l : List Op} {y : St} (hn : NoReopen [] l) (hy : run {} l = .ok y) (he : ∀ i, ¬ HasFile i l.reverse) :
    y.isOpen = [] := by
  have key : ∀ (l : List Op) (h : List Op) (x : St), Inv h x → FInv h x → NoReopen h l → run x l = .ok y → FInv (l.reverse ++ h) y := by
    intro l
    induction l with
    | nil => intro h x _ w _ hy; cases hy; exact w
    | cons o l ih =>
      intro h x v w hn hy
      obtain ⟨z, hz, h2⟩ := bind_ok.1 hy
      have := ih _ z (step_inv v o hz) (step_finv v w o (noReopen_cons hn).1 hz) (noReopen_cons hn).2 h2
      rw [List.reverse_cons, List.append_assoc]
      exact this
  have w := key l [] {} inv_nil ⟨fun i => by simp [HasFile], fun f hf => by cases hf⟩ hn hy
  rw [List.append_nil] at w
  cases hf : y.isOpen with
  | nil => rfl
  | cons f r =>
    obtain ⟨i, hi⟩ := w.own f (by rw [hf]; exact List.mem_cons_self)
    exact absurd ((w.has i).1 (by rw [hi]; rfl)) (he i)

/-- C66 is false for files: the first of two files of an instance is not closed. -/
theorem C66_files_fails : ends [.enableFile (some 0) true, .enable none, .enableFile (some 0) true, .finalize 0]
    (fun y => y.isOpen == [0]) = true := by decide +kernel

/-! ### Cases meeting the hypotheses -/

/-- Two instances; times of the second are not counted, then reset. -/
def sample : List Op := [.enableFile (some 0) true, .exec 1 0 50, .exec 0 100 130, .exec 0 200 205, .writeout, .reset 0,
  .exec 0 300 307, .writeout, .enable none, .finalize 0]

example : ends sample (fun y => y.lines == [(0, 0, 35, 0), (0, 0, 7, 0)] && y.isOpen.isEmpty) = true := by decide +kernel

example : ∃ t, ∀ y, run {} [.enable (some 1), .exec 1 1 9, .enable (some 0), .exec 1 0 50, .exec 0 100 130, .exec 0 200 205] = .ok y →
    times y = .ok (t, 35) := by
  refine ⟨0, fun y hy => ?_⟩
  obtain ⟨t, ht⟩ := C66_backend (pre := [.enable (some 1), .exec 1 1 9]) (o := .enable (some 0))
    (post := [.exec 1 0 50, .exec 0 100 130, .exec 0 200 205]) (i := 0) ⟨rfl, by decide⟩ (by simp [Keeps]) (by decide) hy
  rw [ht, C66_total_zero hy ht]
  rfl

example : Safe [] [.enable (some 0), .exec 0 1 2, .getTime, .enable none, .finalize 0] := by
  refine (C66_faults _).1 ⟨_, rfl⟩

end Laik.Pf
