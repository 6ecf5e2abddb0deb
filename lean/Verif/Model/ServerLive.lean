import Verif.Model.ServerInv
/-!
# Ends of threads, fairness and limits of the server of the TCP backend
-/

namespace Laik.Sv

/-! ### End of the threads -/

/-- Upper limit for the remaining steps of a thread after begin of the shutdown. -/
def Pc.weight : Pc → Nat
  | .done => 0
  | .top => 3
  | .want => 6
  | .clear => 6
  | .signal => 9
  | .run _ => 12
  | .got _ => 15
  | .pop => 18
  | .limit => 21
  | .drain => 24

/-- Upper limit for the remaining steps due to shared state. -/
def Sh.weight (x : Sh) : Nat :=
  x.returned.length + x.sig + (if !x.sigRev && quiet x.queue then 1 else 0) + (if x.told then 0 else 2)

/-- Upper limit for the remaining steps after begin of the shutdown. -/
def Sys.weight (s : Sys) : Nat := s.sh.weight + (s.pcs.map Pc.weight).sum

theorem quiet_push (q : Queue) (s : Nat) : quiet (push q s) = quiet q := by
  simp [quiet, push]

theorem ite_le_one (b : Bool) : (if b then 1 else 0 : Nat) ≤ 1 := by cases b <;> decide

theorem tstep_weight {limit : Nat} {x x' : Sh} {p p' : Pc} (h : TStep limit x p x' p') (hs : x.shutdown = true) :
    x'.weight + p'.weight < x.weight + p.weight ∧ x'.shutdown = true := by
  have b := fun b : Bool => ite_le_one b
  cases h with
  | enter => exact ⟨by simp only [Sh.weight, Pc.weight]; omega, hs⟩
  | stop => exact ⟨by simp only [Sh.weight, Pc.weight]; omega, hs⟩
  | go h => rw [hs] at h; cases h
  | take s r hr =>
    refine ⟨?_, hs⟩
    simp only [Sh.weight, Pc.weight, quiet_push, hr, List.length_cons]
    omega
  | drained => exact ⟨by simp only [Sh.weight, Pc.weight]; omega, hs⟩
  | limit =>
    refine ⟨?_, hs⟩
    have := b (!x.sigRev && quiet (limited limit x.queue).1)
    simp only [Sh.weight, Pc.weight]
    omega
  | poll ready h1 h2 h3 =>
    refine ⟨?_, hs⟩
    have e : (!decide (0 < x.sig) && quiet (polled ready x.queue)) = false := by
      rcases h3 with h | ⟨e, he, hr⟩
      · simp [h]
      · have : quiet (polled ready x.queue) = false := by
          rw [quiet, List.all_eq_false]
          exact ⟨(e.1, ready e.1), List.mem_map.2 ⟨e, he, rfl⟩, by simp [hr]⟩
        rw [this, Bool.and_false]
    simp only [Sh.weight, Pc.weight, e, h1, h2, Bool.not_false, Bool.true_and, Bool.false_eq_true, ↓reduceIte]
    omega
  | popSignal => exact ⟨by simp only [Sh.weight, Pc.weight]; omega, hs⟩
  | popSock s q =>
    refine ⟨?_, hs⟩
    have := b (!x.sigRev && quiet q)
    simp only [Sh.weight, Pc.weight]
    omega
  | receive h => exact ⟨by simp only [Sh.weight, Pc.weight]; omega, hs⟩
  | cleared =>
    refine ⟨?_, hs⟩
    have := b (!false && quiet x.queue)
    simp only [Sh.weight, Pc.weight]
    omega
  | accept =>
    refine ⟨?_, hs⟩
    simp only [Sh.weight, Pc.weight, quiet_push]
    omega
  | noAccept =>
    refine ⟨?_, hs⟩
    simp only [Sh.weight, Pc.weight, quiet_push]
    omega
  | closed => exact ⟨by simp only [Sh.weight, Pc.weight]; omega, hs⟩
  | input => exact ⟨by simp only [Sh.weight, Pc.weight]; omega, hs⟩
  | fail => exact ⟨by simp only [Sh.weight, Pc.weight]; omega, hs⟩
  | ok => exact ⟨by simp only [Sh.weight, Pc.weight, List.length_append, List.length_singleton]; omega, hs⟩
  | send => exact ⟨by simp only [Sh.weight, Pc.weight]; omega, hs⟩
  | sendFull => exact ⟨by simp only [Sh.weight, Pc.weight]; omega, hs⟩

theorem step_weight {limit : Nat} {s t : Sys} (h : Step limit s t) (hs : s.sh.shutdown = true) :
    t.weight < s.weight ∧ t.sh.shutdown = true := by
  cases h with
  | thread x x' p p' a b ht =>
    obtain ⟨h1, h2⟩ := tstep_weight ht hs
    refine ⟨?_, h2⟩
    simp only [Sys.weight, List.map_append, List.map_cons, List.sum_append, List.sum_cons]
    omega
  | shutdown x ps h => simp only at hs; rw [hs] at h; cases h
  | tell x ps h1 h2 =>
    refine ⟨?_, hs⟩
    simp only [Sys.weight, Sh.weight, h2, ↓reduceIte, Bool.false_eq_true]
    omega
  | tellFull x ps h1 h2 =>
    refine ⟨?_, hs⟩
    simp only [Sys.weight, Sh.weight, h2, ↓reduceIte, Bool.false_eq_true]
    omega

theorem firstReady_quiet {q : Queue} (h : quiet q = false) : ∃ r, firstReady q = some r := by
  induction q with
  | nil => cases h
  | cons e q ih =>
    rw [firstReady]
    by_cases he : e.2 = true
    · exact ⟨_, if_pos he⟩
    · rw [if_neg he]
      have : quiet q = false := by
        simpa [quiet, he] using h
      obtain ⟨r, hr⟩ := ih this
      exact ⟨_, by rw [hr]; rfl⟩

/-- A thread which did not end and does not wait for the lock can do a step, if events it
waits for are there. -/
theorem can_step {limit : Nat} {x : Sh} {p : Pc} (h1 : p ≠ .want) (h2 : p ≠ .done) (h3 : p = .pop → 0 < x.sig) :
    ∃ x' p', TStep limit x p x' p' := by
  cases p with
  | want => exact absurd rfl h1
  | done => exact absurd rfl h2
  | top =>
    cases h : x.shutdown with
    | true => exact ⟨_, _, .stop x h⟩
    | false => exact ⟨_, _, .go x h⟩
  | drain =>
    cases h : x.returned with
    | nil => exact ⟨_, _, .drained x h⟩
    | cons s r => exact ⟨_, _, .take x s r h⟩
  | limit => exact ⟨_, _, .limit x⟩
  | pop =>
    cases h : x.sigRev with
    | true => exact ⟨_, _, .popSignal x h⟩
    | false =>
      cases hq : quiet x.queue with
      | true => exact ⟨_, _, .poll x (fun _ => false) h hq (Or.inl (h3 rfl))⟩
      | false =>
        obtain ⟨⟨s, q⟩, hr⟩ := firstReady_quiet hq
        exact ⟨_, _, .popSock x s q h hr⟩
  | clear =>
    rcases Nat.eq_zero_or_pos x.sig with h | h
    · exact ⟨_, _, .cleared x h⟩
    · exact ⟨_, _, .receive x h⟩
  | got s =>
    by_cases h : s = 0
    · subst h
      exact ⟨_, _, .noAccept x⟩
    · exact ⟨_, _, .closed x s h⟩
  | run s => exact ⟨_, _, .ok x s⟩
  | signal => exact ⟨_, _, .send x⟩

theorem step_of_mem {limit : Nat} {x : Sh} {ps : List Pc} {p : Pc} (hp : p ∈ ps) (h : ∃ x' p', TStep limit x p x' p') :
    ∃ t, Step limit ⟨x, ps⟩ t := by
  obtain ⟨a, b, rfl⟩ := List.append_of_mem hp
  obtain ⟨x', p', ht⟩ := h
  exact ⟨_, .thread x x' p p' a b ht⟩

theorem told_step {limit n : Nat} {s : Sys} (h : Reach limit n s) (ht : s.sh.told = true) {p : Pc} (hp : p ∈ s.pcs) (hd : p ≠ .done) :
    ∃ t, Step limit s t := by
  have ha := reach_awake h
  have hl := reach_lock h
  obtain ⟨x, ps⟩ := s
  have act : ∀ q, q ∈ ps → q ≠ .want → q ≠ .done → ∃ t, Step limit ⟨x, ps⟩ t := by
    intro q hq h1 h2
    exact step_of_mem hq (can_step h1 h2 fun e => ha.stop ht q hq (by rw [e]; rfl))
  by_cases hw : p = .want
  · subst hw
    cases hk : x.lock with
    | false => exact step_of_mem hp ⟨_, _, .enter x hk⟩
    | true =>
      simp only [hk, ↓reduceIte] at hl
      obtain ⟨q, hq, hql⟩ := List.countP_pos_iff.1 (show 0 < ps.countP Pc.locked by rw [locks] at hl; omega)
      exact act q hq (by rintro rfl; cases hql) (by rintro rfl; cases hql)
  · exact act p hp hw hd

/-! ### Fairness of the queue -/

/-- Search in `laik_tcp_socket_queue_pop` (src/backends/tcp/socketqueue.c 96-120) with the
special first entry: `none` in the result if this had an event (and was reset). -/
def scan (sr : Bool) (q : Queue) : Option (Option Nat × Queue) :=
  if sr then some (none, q) else (firstReady q).map fun r => (some r.1, r.2)

/-- What happens between two returns of `laik_tcp_socket_queue_pop`: sockets are pushed,
and at the time of a call of `poll` some sockets have input, or a byte was sent to the
signal socket. -/
structure Round where
  pushed : List Nat
  ready : Nat → Bool
  sig : Bool

/-- One call of `laik_tcp_socket_queue_pop`, src/backends/tcp/socketqueue.c 90-126, with at
most one call of `poll`.  `none`: `poll` would block. -/
def popCall (r : Round) (sr : Bool) (q : Queue) : Option (Option Nat × Bool × Queue) :=
  match scan sr q with
  | some (s, q') => some (s, false, q')
  | none => (scan r.sig (polled r.ready q)).map fun x => (x.1, if x.1.isNone then false else r.sig, x.2)

/-- Results of calls of `laik_tcp_socket_queue_pop`. -/
def calls : List Round → Bool → Queue → List (Option Nat)
  | [], _, _ => []
  | r :: rs, sr, q =>
    match popCall r sr (r.pushed.foldl push q) with
    | some (s, sr', q') => s :: calls rs sr' q'
    | none => []

/-- Number of entries with events. -/
def events (q : Queue) : Nat := q.countP (·.2)

theorem events_push (ss : List Nat) (q : Queue) : ∃ n, ss.foldl push q = q ++ n ∧ events n = 0 := by
  induction ss generalizing q with
  | nil => exact ⟨[], by simp, rfl⟩
  | cons s ss ih =>
    obtain ⟨n, h1, h2⟩ := ih (push q s)
    refine ⟨(s, false) :: n, ?_, ?_⟩
    · rw [List.foldl_cons, h1, push, List.append_assoc]
      rfl
    · simpa [events] using h2

theorem firstReady_append (a b : Queue) : firstReady (a ++ b) =
    match firstReady a with
    | some r => some (r.1, r.2 ++ b)
    | none => (firstReady b).map fun r => (r.1, a ++ r.2) := by
  induction a with
  | nil => cases h : firstReady b <;> simp [firstReady, h]
  | cons e a ih =>
    rw [List.cons_append, firstReady, firstReady]
    by_cases he : e.2 = true
    · rw [if_pos he, if_pos he]
    · rw [if_neg he, if_neg he, ih]
      cases firstReady a with
      | some r => rfl
      | none => cases firstReady b <;> rfl

theorem firstReady_some {q : Queue} {s : Nat} {q' : Queue} (h : firstReady q = some (s, q')) :
    events q = events q' + 1 ∧ q.length = q'.length + 1 := by
  induction q generalizing q' with
  | nil => cases h
  | cons e q ih =>
    rw [firstReady] at h
    by_cases he : e.2 = true
    · rw [if_pos he] at h
      cases h
      exact ⟨by simp [events, List.countP_cons, he], rfl⟩
    · rw [if_neg he] at h
      cases hr : firstReady q with
      | none => rw [hr] at h; cases h
      | some r =>
        rw [hr] at h
        obtain ⟨r1, r2⟩ := r
        cases h
        obtain ⟨i1, i2⟩ := ih hr
        refine ⟨?_, ?_⟩
        · simp only [events, List.countP_cons] at i1 ⊢
          rw [i1]
          omega
        · simp only [List.length_cons]; omega

theorem firstReady_none {q : Queue} (h : firstReady q = none) : events q = 0 := by
  induction q with
  | nil => rfl
  | cons e q ih =>
    rw [firstReady] at h
    by_cases he : e.2 = true
    · rw [if_pos he] at h; cases h
    · rw [if_neg he] at h
      have := ih (by cases hr : firstReady q with
        | none => rfl
        | some r => rw [hr] at h; cases h)
      simpa [events, List.countP_cons, he] using this

/-- Calls after which socket `t` was surely returned, if it is after entries `a`, with
event or not (`f`). -/
def waitFor (sr : Bool) (a : Queue) (f : Bool) (b : Queue) : Nat :=
  (if sr then 1 else 0) + (if f then events a else events a + events b + 1 + a.length)

/-- A search either returns `t`, or less calls are needed afterwards. -/
theorem scan_flagged (sr : Bool) (a b : Queue) (t : Nat) :
    ∃ s q', scan sr (a ++ (t, true) :: b) = some (s, q') ∧
      (s = some t ∨ ∃ a' b', q' = a' ++ (t, true) :: b' ∧ events a' < (if sr then 1 else 0) + events a ∧ (s = none → sr = true)) := by
  unfold scan
  cases sr with
  | true => exact ⟨none, _, if_pos rfl, Or.inr ⟨a, b, rfl, by simp, fun _ => rfl⟩⟩
  | false =>
    rw [if_neg (by simp), firstReady_append]
    cases h : firstReady a with
    | some r =>
      obtain ⟨s, a'⟩ := r
      have := (firstReady_some h).1
      exact ⟨some s, _, rfl, Or.inr ⟨a', b, rfl, by simp; omega, fun h => (by cases h)⟩⟩
    | none => exact ⟨some t, _, rfl, Or.inl rfl⟩

theorem calls_serve (t : Nat) : ∀ (rs : List Round) (sr : Bool) (a : Queue) (f : Bool) (b : Queue),
    (∀ r ∈ rs, r.ready t = true) → waitFor sr a f b < rs.length → some t ∈ calls rs sr (a ++ (t, f) :: b) := by
  intro rs
  induction rs with
  | nil => intro sr a f b _ h; exact absurd h (Nat.not_lt_zero _)
  | cons r rs ih =>
    intro sr a f b hr hlen
    have hr' : ∀ r' ∈ rs, r'.ready t = true := fun r' h => hr r' (List.mem_cons_of_mem _ h)
    rw [List.length_cons] at hlen
    obtain ⟨n, hn1, hn2⟩ := events_push r.pushed (a ++ (t, f) :: b)
    rw [calls, hn1, List.append_assoc, List.cons_append]
    have hb : events (b ++ n) = events b := by
      have : n.countP (·.2) = 0 := hn2
      simp only [events, List.countP_append, this]
      omega
    generalize b ++ n = b at hb ⊢
    have hw : waitFor sr a f b < rs.length + 1 := by
      unfold waitFor at hlen ⊢
      cases f with
      | true => exact hlen
      | false => simp only [Bool.false_eq_true, ↓reduceIte] at hlen ⊢; omega
    clear hlen hb hn1
    cases f with
    | true =>
      obtain ⟨s, q', h1, h2⟩ := scan_flagged sr a b t
      rw [popCall, h1]
      simp only
      rcases h2 with h2 | ⟨a', b', rfl, h3, _⟩
      · rw [h2]; exact List.mem_cons_self
      · refine List.mem_cons_of_mem _ (ih false a' true b' hr' ?_)
        unfold waitFor at hw ⊢
        simp only [↓reduceIte, Bool.false_eq_true] at hw ⊢
        omega
    | false =>
      cases sr with
      | true =>
        have : scan true (a ++ (t, false) :: b) = some (none, a ++ (t, false) :: b) := if_pos rfl
        rw [popCall, this]
        refine List.mem_cons_of_mem _ (ih false a false b hr' ?_)
        unfold waitFor at hw ⊢
        simp only [↓reduceIte, Bool.false_eq_true] at hw ⊢
        omega
      | false =>
        have e : scan false (a ++ (t, false) :: b) = (firstReady (a ++ (t, false) :: b)).map fun r => (some r.1, r.2) := if_neg (by simp)
        rw [popCall, e, firstReady_append]
        unfold waitFor at hw
        simp only [↓reduceIte, Bool.false_eq_true] at hw
        cases ha : firstReady a with
        | some x =>
          obtain ⟨s, a'⟩ := x
          obtain ⟨g1, g2⟩ := firstReady_some ha
          refine List.mem_cons_of_mem _ (ih false a' false b hr' ?_)
          unfold waitFor
          simp only [↓reduceIte, Bool.false_eq_true]
          omega
        | none =>
          have ha0 := firstReady_none ha
          have e2 : firstReady ((t, false) :: b) = (firstReady b).map fun r => (r.1, (t, false) :: r.2) := if_neg (by simp)
          simp only [e2]
          cases hb : firstReady b with
          | some x =>
            obtain ⟨s, b'⟩ := x
            obtain ⟨g1, g2⟩ := firstReady_some hb
            refine List.mem_cons_of_mem _ (ih false a false b' hr' ?_)
            unfold waitFor
            simp only [↓reduceIte, Bool.false_eq_true]
            omega
          | none =>
            have e3 : polled r.ready (a ++ (t, false) :: b) = polled r.ready a ++ (t, true) :: polled r.ready b := by
              simp [polled, hr r List.mem_cons_self]
            obtain ⟨s, q', h1, h2⟩ := scan_flagged r.sig (polled r.ready a) (polled r.ready b) t
            simp only [Option.map_none]
            rw [e3, h1]
            simp only [Option.map_some]
            have hle : events (polled r.ready a) ≤ a.length := by
              have := List.countP_le_length (p := (·.2)) (l := polled r.ready a)
              rw [polled, List.length_map] at this
              exact this
            rcases h2 with h2 | ⟨a', b', rfl, h3, h4⟩
            · rw [h2]; exact List.mem_cons_self
            · refine List.mem_cons_of_mem _ (ih _ a' true b' hr' ?_)
              unfold waitFor
              have : (if s.isNone = true then false else r.sig) = false := by
                cases s with
                | none => rfl
                | some s =>
                  cases hsg : r.sig with
                  | false => rfl
                  | true =>
                    rw [hsg] at h1
                    cases h1
              rw [this]
              have := ite_le_one r.sig
              simp only [↓reduceIte, Bool.false_eq_true]
              omega

/-! ### Number of open sockets -/

/-- The thread returned a socket which may not yet have been taken. -/
def Pc.mayRet : Pc → Bool
  | .signal | .want | .top | .drain | .done => true
  | _ => false

/-- The thread may have moved its socket to the queue. -/
def Pc.mayAdd : Pc → Bool
  | .signal | .want | .top | .drain | .done | .limit => true
  | _ => false

/-- The queue may be longer than allowed. -/
def Pc.adding : Pc → Bool
  | .drain | .limit => true
  | _ => false

structure Bnd (k : Nat) (s : Sys) : Prop where
  ret : s.sh.returned.length ≤ s.pcs.countP Pc.mayRet
  all : s.sh.queue.length + s.sh.returned.length ≤ k + s.pcs.countP Pc.mayAdd
  got : ∀ t, Pc.got t ∈ s.pcs → s.sh.queue.length + 1 ≤ k
  queue : (∀ p ∈ s.pcs, p.adding = false) → s.sh.queue.length ≤ k

theorem mayRet_le (ps : List Pc) : ps.countP Pc.mayRet ≤ ps.countP Pc.mayAdd :=
  List.countP_mono_left fun p _ h => by cases p <;> first | rfl | cases h

theorem adding_locked {p : Pc} (h : p.adding = true) : p.locked = true := by cases p <;> first | rfl | cases h

theorem limited_length (limit : Nat) (q : Queue) (h : (socks q).count 0 ≤ 1) : (limited limit q).1.length ≤ max 1 limit := by
  unfold limited
  by_cases hl : q.length > limit
  · rw [if_pos hl, (dropAll_length q).1]
    have : (q.filter (·.1 = 0)).length = (socks q).count 0 := by
      rw [socks, List.count, List.countP_map, List.countP_eq_length_filter]
      congr 2
    omega
  · rw [if_neg hl]
    simp only
    omega

theorem bnd_thread {limit : Nat} {x x' : Sh} {p p' : Pc} {a b : List Pc} (ht : TStep limit x p x' p')
    (hl : locks (a ++ p :: b) = if x.lock then 1 else 0) (h0 : (socks x.queue).count 0 ≤ 1)
    (i : Bnd (max 1 limit) ⟨x, a ++ p :: b⟩) : Bnd (max 1 limit) ⟨x', a ++ p' :: b⟩ := by
  obtain ⟨i1, i2, i3, i4⟩ := i
  generalize hk : max 1 limit = k at i1 i2 i3 i4 ⊢
  simp only at i1 i2 i3 i4
  have hmem : ∀ (q r : Pc), q ∈ a ++ r :: b ↔ (q ∈ a ∨ q ∈ b) ∨ q = r := by
    intro q r
    simp only [List.mem_append, List.mem_cons]
    constructor
    · rintro (h | h | h)
      · exact Or.inl (Or.inl h)
      · exact Or.inr h
      · exact Or.inl (Or.inr h)
    · rintro ((h | h) | h)
      · exact Or.inl h
      · exact Or.inr (Or.inr h)
      · exact Or.inr (Or.inl h)
  have hm := mayRet_le (a ++ b)
  simp only [List.countP_append, List.countP_cons, hmem] at i1 i2 i3 i4 hm
  -- with the lock nobody else has got a socket or adds sockets
  have noGot : p.locked = true → ∀ t, ¬ (Pc.got t ∈ a ∨ Pc.got t ∈ b) := by
    intro hp t hm
    have := other_unlocked hl hp _ hm
    cases this
  have noAdd : p.locked = true → ∀ q, q ∈ a ∨ q ∈ b → q.adding = false := by
    intro hp q hq
    cases hqa : q.adding with
    | false => rfl
    | true =>
      have := adding_locked hqa
      rw [other_unlocked hl hp _ hq] at this
      cases this
  have qk : p.locked = true → p.adding = false → x.queue.length ≤ k := by
    intro hp ha
    exact i4 fun q hq => by
      rcases hq with hq | hq
      · exact noAdd hp q hq
      · rw [hq]; exact ha
  -- lengths as before
  have same : ∀ (y : Sh), y.queue.length = x.queue.length → y.returned = x.returned → p'.mayRet = p.mayRet → p'.mayAdd = p.mayAdd →
      p'.adding = p.adding → (∀ t, p' ≠ .got t) → Bnd k ⟨y, a ++ p' :: b⟩ := by
    intro y e1 e2 e3 e4 e5 e6
    refine ⟨?_, ?_, ?_, ?_⟩
    · simp only [List.countP_append, List.countP_cons, e2, e3]; exact i1
    · simp only [List.countP_append, List.countP_cons, e1, e2, e4]; exact i2
    · intro t h
      simp only [hmem, e1] at h ⊢
      rcases h with h | h
      · exact i3 t (Or.inl h)
      · exact absurd h.symm (e6 t)
    · intro h
      simp only [hmem, e1] at h ⊢
      exact i4 fun q hq => by
        rcases hq with hq | hq
        · exact h q (Or.inl hq)
        · rw [hq, ← e5]; exact h p' (Or.inr rfl)
  -- the thread has the lock, and the queue is not too long
  have fit : ∀ (y : Sh), p.locked = true → y.queue.length ≤ k → y.returned.length ≤ (a ++ p' :: b).countP Pc.mayRet →
      (∀ t, p' = .got t → y.queue.length + 1 ≤ k) → Bnd k ⟨y, a ++ p' :: b⟩ := by
    intro y hp hq hr hg
    refine ⟨hr, ?_, ?_, fun _ => hq⟩
    · have := mayRet_le (a ++ p' :: b)
      simp only
      omega
    · intro t h
      simp only [hmem] at h
      rcases h with h | h
      · exact absurd h (noGot hp t)
      · exact hg t h.symm
  cases ht with
  | enter => exact same _ rfl rfl rfl rfl rfl (by simp)
  | stop => exact same _ rfl rfl rfl rfl rfl (by simp)
  | go =>
    refine ⟨?_, ?_, ?_, ?_⟩
    · simp only [List.countP_append, List.countP_cons]; exact i1
    · simp only [List.countP_append, List.countP_cons]; exact i2
    · intro t h
      simp only [hmem] at h
      rcases h with h | h
      · exact i3 t (Or.inl h)
      · cases h
    · intro h
      have := h .drain ((hmem _ _).2 (Or.inr rfl))
      cases this
  | take s r hr =>
    rw [hr, List.length_cons] at i1 i2
    refine ⟨?_, ?_, ?_, ?_⟩
    · simp only [List.countP_append, List.countP_cons]; omega
    · simp only [List.countP_append, List.countP_cons, push, List.length_append, List.length_singleton]; omega
    · intro t h
      simp only [hmem] at h
      rcases h with h | h
      · exact absurd h (noGot rfl t)
      · cases h
    · intro h
      have := h .drain ((hmem _ _).2 (Or.inr rfl))
      cases this
  | drained hr =>
    rw [hr] at i1 i2
    refine ⟨?_, ?_, ?_, ?_⟩
    · simp only [hr]; exact Nat.zero_le _
    · simp only [List.countP_append, List.countP_cons, hr]; exact i2
    · intro t h
      simp only [hmem] at h
      rcases h with h | h
      · exact absurd h (noGot rfl t)
      · cases h
    · intro h
      have := h .limit ((hmem _ _).2 (Or.inr rfl))
      cases this
  | limit =>
    refine fit _ rfl ?_ ?_ (by simp)
    · rw [← hk]; exact limited_length limit x.queue h0
    · simp only [List.countP_append, List.countP_cons]; exact i1
  | poll ready =>
    exact same _ (by simp [polled]) rfl rfl rfl rfl (by simp)
  | popSignal =>
    exact same _ rfl rfl rfl rfl rfl (by simp)
  | popSock s q _ hf =>
    have hq := qk rfl rfl
    have := (firstReady_some hf).2
    refine fit _ rfl (by simp only; omega) ?_ (fun _ _ => by simp only; omega)
    simp only [List.countP_append, List.countP_cons]; exact i1
  | receive => exact same _ rfl rfl rfl rfl rfl (by simp)
  | cleared =>
    have hq := qk rfl rfl
    refine fit _ rfl hq ?_ (by simp)
    simp only [List.countP_append, List.countP_cons, Pc.mayRet] at i1 ⊢
    simp only [Bool.false_eq_true, ↓reduceIte] at i1 ⊢
    omega
  | accept =>
    have hq := i3 0 (Or.inr rfl)
    refine fit _ rfl (by simp [push]; omega) ?_ (by simp)
    simp only [List.countP_append, List.countP_cons]; exact i1
  | noAccept =>
    have hq := i3 0 (Or.inr rfl)
    refine fit _ rfl (by simp [push]; omega) ?_ (by simp)
    simp only [List.countP_append, List.countP_cons, Pc.mayRet, Bool.false_eq_true, ↓reduceIte] at i1 ⊢
    omega
  | closed s =>
    have hq := i3 s (Or.inr rfl)
    refine fit _ rfl (by simp only; omega) ?_ (by simp)
    simp only [List.countP_append, List.countP_cons, Pc.mayRet, Bool.false_eq_true, ↓reduceIte] at i1 ⊢
    omega
  | input s =>
    have hq := i3 s (Or.inr rfl)
    refine fit _ rfl (by simp only; omega) ?_ (by simp)
    simp only [List.countP_append, List.countP_cons]; exact i1
  | fail s =>
    refine ⟨?_, ?_, ?_, ?_⟩
    · simp only [List.countP_append, List.countP_cons, Pc.mayRet, Bool.false_eq_true, ↓reduceIte] at i1 ⊢; omega
    · simp only [List.countP_append, List.countP_cons, Pc.mayAdd, Bool.false_eq_true, ↓reduceIte] at i2 ⊢; omega
    · intro t h
      simp only [hmem] at h
      rcases h with h | h
      · exact i3 t (Or.inl h)
      · cases h
    · intro h
      simp only [hmem] at h
      exact i4 fun q hq => by
        rcases hq with hq | hq
        · exact h q (Or.inl hq)
        · rw [hq]; rfl
  | ok s =>
    refine ⟨?_, ?_, ?_, ?_⟩
    · simp only [List.countP_append, List.countP_cons, Pc.mayRet, Bool.false_eq_true, ↓reduceIte, List.length_append, List.length_singleton] at i1 ⊢; omega
    · simp only [List.countP_append, List.countP_cons, Pc.mayAdd, Bool.false_eq_true, ↓reduceIte, List.length_append, List.length_singleton] at i2 ⊢; omega
    · intro t h
      simp only [hmem] at h
      rcases h with h | h
      · exact i3 t (Or.inl h)
      · cases h
    · intro h
      simp only [hmem] at h
      exact i4 fun q hq => by
        rcases hq with hq | hq
        · exact h q (Or.inl hq)
        · rw [hq]; rfl
  | send => exact same _ rfl rfl rfl rfl rfl (by simp)
  | sendFull => exact same _ rfl rfl rfl rfl rfl (by simp)

theorem own_zero {limit n : Nat} {s : Sys} (h : Reach limit n s) : (socks s.sh.queue).count 0 ≤ 1 := by
  have h1 := (reach_own h 0).2
  have h2 : s.own 0 ≤ 1 := by rw [h1]; split <;> omega
  unfold Sys.own Sh.own at h2
  omega

theorem reach_bnd {limit n : Nat} {s : Sys} (h : Reach limit n s) : Bnd (max 1 limit) s := by
  induction h with
  | init =>
    refine ⟨Nat.zero_le _, ?_, ?_, ?_⟩
    · simp only [init, List.length_cons, List.length_nil]; omega
    · intro t h
      simp [init, List.mem_replicate] at h
    · intro _
      simp only [init, List.length_cons, List.length_nil]; omega
  | step hr hs ih =>
    have hl := reach_lock hr
    have h0 := own_zero hr
    cases hs with
    | thread x x' p p' a b ht => exact bnd_thread ht hl h0 ih
    | shutdown => exact ⟨ih.1, ih.2, ih.3, ih.4⟩
    | tell => exact ⟨ih.1, ih.2, ih.3, ih.4⟩
    | tellFull => exact ⟨ih.1, ih.2, ih.3, ih.4⟩

theorem reach_pcs {limit n : Nat} {s : Sys} (h : Reach limit n s) : s.pcs.length = n := by
  induction h with
  | init => simp [init]
  | step _ hs ih =>
    cases hs with
    | thread x x' p p' a b ht => simpa using ih
    | shutdown => exact ih
    | tell => exact ih
    | tellFull => exact ih

theorem held_le (ps : List Pc) : ps.countP Pc.mayAdd + (ps.flatMap Pc.held).length ≤ ps.length := by
  induction ps with
  | nil => simp
  | cons p ps ih =>
    rw [List.countP_cons, List.flatMap_cons, List.length_append, List.length_cons]
    have : (if p.mayAdd = true then 1 else 0) + p.held.length ≤ 1 := by cases p <;> simp [Pc.mayAdd, Pc.held]
    omega

end Laik.Sv
