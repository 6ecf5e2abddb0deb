import Verif.Model.ServerLive
/-!
# C64: threads of the server of the TCP backend
-/

namespace Laik.Sv

/-- Where sockets are: in the queue, returned by threads, closed, or handled by a thread. -/
def Sys.places (s : Sys) : List Nat :=
  s.sh.queue.map Prod.fst ++ s.sh.returned ++ s.sh.freed ++ s.pcs.flatMap Pc.held

/-- C64: in all states and for any order of steps of threads, each socket is at exactly one
place.  So no socket gets lost, is closed twice, is used after it was closed, or is handled
by two threads. -/
theorem C64_one_place {limit n : Nat} {s : Sys} (h : Reach limit n s) : s.places.Perm (List.range s.sh.next) := by
  rw [List.perm_iff_count]
  intro t
  have e : s.places.count t = s.own t := by
    simp only [Sys.places, Sys.own, Sh.own, socks, List.count_append]
  rw [e, (reach_own h t).2, List.count_range]

/-- C64: the listening socket is never closed or handled as a connection, it is in the queue
unless a thread is about to accept a connection. -/
theorem C64_listener {limit n : Nat} {s : Sys} (h : Reach limit n s) :
    0 ∉ s.sh.freed ∧ Pc.run 0 ∉ s.pcs ∧ ((0, true) ∈ s.sh.queue ∨ (0, false) ∈ s.sh.queue ∨ Pc.got 0 ∈ s.pcs) := by
  obtain ⟨h1, h2, h3⟩ := reach_lst h
  refine ⟨h2, h3, ?_⟩
  have hn := (reach_own h 0).1
  have hp := (C64_one_place h).mem_iff (a := 0)
  rw [List.mem_range] at hp
  have := hp.2 (by omega)
  unfold Sys.places at this
  simp only [List.mem_append] at this
  rcases this with ((h | h) | h) | h
  · obtain ⟨⟨e, b⟩, he, rfl⟩ := List.mem_map.1 h
    cases b
    · exact Or.inr (Or.inl he)
    · exact Or.inl he
  · exact absurd h h1
  · exact absurd h h2
  · obtain ⟨p, hp, hh⟩ := List.mem_flatMap.1 h
    cases p with
    | got t =>
      have : (0 : Nat) = t := by simpa [Pc.held] using hh
      exact Or.inr (Or.inr (this ▸ hp))
    | run t =>
      have : (0 : Nat) = t := by simpa [Pc.held] using hh
      exact absurd (this ▸ hp) h3
    | _ => cases hh

/-- C64: at most one thread has the lock. -/
theorem C64_exclusive {limit n : Nat} {x : Sh} {a b c : List Pc} {p q : Pc} (h : Reach limit n ⟨x, a ++ p :: b ++ q :: c⟩) :
    ¬ (p.locked = true ∧ q.locked = true) := by
  rintro ⟨hp, hq⟩
  have hl := reach_lock h
  simp only [List.append_assoc, List.cons_append] at hl
  have := other_unlocked hl hp q (Or.inr (by simp))
  rw [hq] at this
  cases this

/-- C64: a thread never sleeps while a returned socket waits to be watched, or after
the shutdown was signalled: `poll` returns as there is a byte to receive. -/
theorem C64_wakeup {limit n : Nat} {s : Sys} (h : Reach limit n s) (hp : Pc.pop ∈ s.pcs)
    (hw : (s.sh.returned ≠ [] ∧ Pc.signal ∉ s.pcs) ∨ s.sh.told = true) : 0 < s.sh.sig := by
  have ha := reach_awake h
  rcases hw with ⟨h1, h2⟩ | h1
  · rcases ha.ret _ hp rfl h1 with h3 | h3
    · exact h3
    · exact absurd h3 h2
  · exact ha.stop h1 _ hp rfl

/-- `k` steps. -/
inductive Steps (limit : Nat) : Nat → Sys → Sys → Prop
  | zero (s : Sys) : Steps limit 0 s s
  | succ {k : Nat} {s t u : Sys} : Step limit s t → Steps limit k t u → Steps limit (k + 1) s u

/-- C64: after begin of the shutdown only so many steps are possible. -/
theorem C64_shutdown_ends {limit k : Nat} {s t : Sys} (h : Steps limit k s t) (hs : s.sh.shutdown = true) :
    k ≤ s.sh.returned.length + s.sh.sig + 3 + 24 * s.pcs.length := by
  have key : k ≤ s.weight := by
    induction h with
    | zero => exact Nat.zero_le _
    | succ h1 _ ih =>
      obtain ⟨g1, g2⟩ := step_weight h1 hs
      have := ih g2
      omega
  have hw : ∀ ps : List Pc, (ps.map Pc.weight).sum ≤ 24 * ps.length := by
    intro ps
    induction ps with
    | nil => exact Nat.le_refl _
    | cons p ps ih =>
      rw [List.map_cons, List.sum_cons, List.length_cons]
      have : p.weight ≤ 24 := by cases p <;> simp [Pc.weight]
      omega
  have := hw s.pcs
  unfold Sys.weight Sh.weight at key
  have h1 := ite_le_one (!s.sh.sigRev && quiet s.sh.queue)
  have h2 : (if s.sh.told = true then 0 else 2) ≤ 2 := by split <;> omega
  omega

/-- C64: when no more steps are possible after the signal of the shutdown, all threads
ended, so `laik_tcp_server_free` can join them. -/
theorem C64_shutdown_done {limit n : Nat} {s : Sys} (h : Reach limit n s) (ht : s.sh.told = true) (hn : ∀ t, ¬ Step limit s t) :
    ∀ p ∈ s.pcs, p = .done := by
  intro p hp
  by_cases hd : p = .done
  · exact hd
  · obtain ⟨t, hs⟩ := told_step h ht hp hd
    exact absurd hs (hn t)

/-- C64: with what `laik_tcp_server_free` closes after the threads ended, each socket ever
used was closed exactly once. -/
theorem C64_all_closed {limit n : Nat} {s : Sys} (h : Reach limit n s) (hd : ∀ p ∈ s.pcs, p = .done) :
    (s.sh.freed ++ freeRest s.sh).Perm (List.range s.sh.next) := by
  have hl := reach_lst h
  have h0 : s.pcs.flatMap Pc.held = [] := by
    rw [List.flatMap_eq_nil_iff]
    intro p hp
    rw [hd p hp]
    rfl
  refine List.Perm.trans ?_ (C64_one_place h)
  rw [List.perm_iff_count]
  intro t
  have h1 : (s.sh.queue.map Prod.fst).count 0 = 1 := by
    obtain ⟨hn, ho⟩ := reach_own h 0
    rw [if_pos (by omega)] at ho
    unfold Sys.own Sh.own at ho
    rw [h0, List.count_nil, List.count_eq_zero_of_not_mem hl.ret, List.count_eq_zero_of_not_mem hl.freed] at ho
    simpa using ho
  simp only [freeRest, Sys.places, h0, List.count_append, List.count_nil, List.count_cons]
  by_cases ht : t = 0
  · subst ht
    rw [List.count_eq_zero_of_not_mem (a := 0) (l := (s.sh.queue.map Prod.fst).filter (· ≠ 0)) (by simp), h1]
    simp
    omega
  · rw [List.count_filter (by simpa using ht)]
    have : ((0 : Nat) == t) = false := by simpa using fun h => ht h.symm
    rw [this]
    simp
    omega

/-- C64: the queue is fair.  A socket in the queue which has input is returned by
one of the next `2 * length + 3` calls of `laik_tcp_socket_queue_pop`, whatever other
sockets have input, are pushed, and how often threads are woken up. -/
theorem C64_fair (t : Nat) (rs : List Round) (sr : Bool) (q : Queue) (ht : t ∈ q.map Prod.fst)
    (hr : ∀ r ∈ rs, r.ready t = true) (hl : 2 * q.length + 3 ≤ rs.length) : some t ∈ calls rs sr q := by
  obtain ⟨⟨e, f⟩, he, rfl⟩ := List.mem_map.1 ht
  obtain ⟨a, b, rfl⟩ := List.append_of_mem he
  refine calls_serve e rs sr a f b hr ?_
  have h1 := List.countP_le_length (p := (·.2)) (l := a)
  have h2 := List.countP_le_length (p := (·.2)) (l := b)
  have h3 := ite_le_one sr
  rw [List.length_append, List.length_cons] at hl
  unfold waitFor events
  cases f <;> simp only [Bool.false_eq_true, ↓reduceIte] <;> omega

/-- C64: limit of open sockets (with the listening one): that of the configuration, and one
for each thread. -/
theorem C64_open_sockets {limit n : Nat} {s : Sys} (h : Reach limit n s) :
    s.sh.next - s.sh.freed.length ≤ max 1 limit + n := by
  have hb := (reach_bnd h).all
  have hh := held_le s.pcs
  rw [reach_pcs h] at hh
  have hp := (C64_one_place h).length_eq
  rw [List.length_range] at hp
  unfold Sys.places at hp
  simp only [List.length_append, List.length_map] at hp
  omega

/-- C64: while a thread waits for events the number of watched sockets is in the limit of
the configuration. -/
theorem C64_watched {limit n : Nat} {s : Sys} (h : Reach limit n s) (hp : Pc.pop ∈ s.pcs) : s.sh.queue.length ≤ max 1 limit := by
  refine (reach_bnd h).queue ?_
  intro q hq
  have hl := reach_lock h
  obtain ⟨x, ps⟩ := s
  obtain ⟨a, b, hab⟩ := List.append_of_mem hp
  simp only at hab
  subst hab
  cases ha : q.adding with
  | false => rfl
  | true =>
    simp only [List.mem_append, List.mem_cons] at hq
    rcases hq with hq | hq | hq
    · have := other_unlocked hl rfl q (Or.inl hq)
      rw [adding_locked ha] at this
      cases this
    · rw [hq] at ha; cases ha
    · have := other_unlocked hl rfl q (Or.inr hq)
      rw [adding_locked ha] at this
      cases this

/-! ### Cases meeting the hypotheses -/

/-- Two threads: the first accepts a connection, handles a message and returns the
connection, while the second waits for events. -/
example : ∃ s, Reach 64 2 s ∧ s.sh.returned = [1] ∧ s.sh.sig = 1 ∧ s.pcs = [.want, .pop] := by
  have r0 : Reach 64 2 ⟨⟨[(0, false)], false, 0, [], false, false, false, [], 1⟩, [.want, .want]⟩ := .init
  have r1 := r0.step (.thread _ _ _ _ [] [.want] (.enter _ rfl))
  have r2 := r1.step (.thread _ _ _ _ [] [.want] (.go _ rfl))
  have r3 := r2.step (.thread _ _ _ _ [] [.want] (.drained _ rfl))
  have r4 := r3.step (.thread _ _ _ _ [] [.want] (.limit _))
  have r5 := r4.step (.thread _ _ _ _ [] [.want] (.poll _ (fun _ => true) rfl rfl (Or.inr ⟨(0, false), List.mem_cons_self, rfl⟩)))
  have r6 := r5.step (.thread _ _ _ _ [] [.want] (.popSock _ 0 [] rfl rfl))
  have r7 := r6.step (.thread _ _ _ _ [] [.want] (.accept _))
  have r8 := r7.step (.thread _ _ _ _ [.run 1] [] (.enter _ rfl))
  have r9 := r8.step (.thread _ _ _ _ [.run 1] [] (.go _ rfl))
  have ra := r9.step (.thread _ _ _ _ [.run 1] [] (.drained _ rfl))
  have rb := ra.step (.thread _ _ _ _ [.run 1] [] (.limit _))
  have rc := rb.step (.thread _ _ _ _ [] [.pop] (.ok _ 1))
  have rd := rc.step (.thread _ _ _ _ [] [.pop] (.send _))
  exact ⟨_, rd, rfl, rfl, rfl⟩

/-- Socket 5 with input is behind two others which always have input. -/
example : some 5 ∈ calls (List.replicate 9 ⟨[7], fun _ => true, true⟩) true [(3, true), (4, false), (5, false)] :=
  C64_fair 5 _ true _ (by decide) (by simp) (by decide)

end Laik.Sv
