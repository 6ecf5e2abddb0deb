import Verif.Model.ConnLemmas
/-!
# C65: requests on connections of the TCP backend based on GLib
-/

namespace Laik.Cn

/-- C65: on a connection used for any number of requests, with bytes delivered in any
pieces, and closed by any side at any time: the server handled requests of the
client only, each once, in order and with the bytes of the client.  Requests
for which the client got an answer were handled and the answer is the one of the server for
this request.  At most the last request was started but not answered, or handled
without the client knowing. -/
theorem C65_session {cap : Nat} {x : Conn} (h : Reach cap x) :
    x.handled.map Prod.fst <+: x.started ∧ x.completed <+: x.handled ∧ x.started.length ≤ x.completed.length + 1 := by
  have key : ∀ (hd cp : List (Req × Rep)) (st : List Req),
      ((hd = cp ∧ st = cp.map Prod.fst) ∨ (∃ q, hd = cp ∧ st = cp.map Prod.fst ++ [q]) ∨
        (∃ q a, hd = cp ++ [(q, a)] ∧ st = cp.map Prod.fst ++ [q])) →
      hd.map Prod.fst <+: st ∧ cp <+: hd ∧ st.length ≤ cp.length + 1 := by
    rintro hd cp st (⟨rfl, rfl⟩ | ⟨q, rfl, rfl⟩ | ⟨q, a, rfl, rfl⟩)
    · exact ⟨List.prefix_rfl, List.prefix_rfl, by simp⟩
    · exact ⟨List.prefix_append _ _, List.prefix_rfl, by simp⟩
    · exact ⟨by simp, List.prefix_append _ _, by simp⟩
  apply key
  have i := reach_inv h
  obtain ⟨c, s, up, down, started, completed, handled⟩ := x
  cases c with
  | idle =>
    cases s with
    | reading g => exact Or.inl i.2.2.2
    | sending v => exact i.elim
    | closed => exact Or.inl i.2
  | sending q v =>
    cases s with
    | reading g => exact Or.inr (Or.inl ⟨q, i.2.2.2.2⟩)
    | sending v => exact i.elim
    | closed => exact Or.inr (Or.inl ⟨q, i.2.2⟩)
  | reading q g' =>
    cases s with
    | reading g =>
      rcases i.2.2 with ⟨_, _, _, j4⟩ | ⟨_, _, a, _, _, j5⟩
      · exact Or.inr (Or.inl ⟨q, j4, i.2.1⟩)
      · exact Or.inr (Or.inr ⟨q, a, j5, i.2.1⟩)
    | sending v =>
      obtain ⟨_, i2, _, _, a, _, _, i7⟩ := i
      exact Or.inr (Or.inr ⟨q, a, i7, i2⟩)
    | closed =>
      rcases i.2 with ⟨_, _, j3⟩ | ⟨a, _, _, j3⟩
      · exact Or.inr (Or.inl ⟨q, j3, i.1⟩)
      · exact Or.inr (Or.inr ⟨q, a, j3, i.1⟩)
  | closed =>
    cases s with
    | reading g =>
      rcases i with ⟨_, _, j3, j4⟩ | ⟨q, _, _, j3, j4⟩ | ⟨q, a, _, _, j3, j4⟩
      · exact Or.inl ⟨j3, j4⟩
      · exact Or.inr (Or.inl ⟨q, j3, j4⟩)
      · exact Or.inr (Or.inr ⟨q, a, j3, j4⟩)
    | sending v => exact Or.inr (Or.inr i.2)
    | closed => exact i

/-- C65: a connection which the client may use again (it is stored) has no bytes of old
requests or answers on the way, all requests were handled and answered, and the server
waits for the begin of a request or closed the connection. -/
theorem C65_clean {cap : Nat} {x : Conn} (h : Reach cap x) (hc : x.c = .idle) :
    x.down = [] ∧ x.handled = x.completed ∧ x.started = x.completed.map Prod.fst ∧
    ((x.s = .reading [] ∧ x.up = []) ∨ x.s = .closed) := by
  have i := reach_inv h
  obtain ⟨c, s, up, down, started, completed, handled⟩ := x
  simp only at hc
  subst hc
  cases s with
  | reading g =>
    obtain ⟨i1, i2, i3, i4, i5⟩ := i
    exact ⟨i3, i4, i5, Or.inl ⟨by simp only [i1], i2⟩⟩
  | sending v => exact i.elim
  | closed => exact ⟨i.1, i.2.1, i.2.2, Or.inr rfl⟩

/-- C65: neither side asks for bytes which do not come or finds a wrong message: as long as
no side closes the connection and a request is under way, there is something to do. -/
theorem C65_progress {cap : Nat} (hcap : 0 < cap) {x : Conn} (h : Reach cap x) (h1 : x.c ≠ .idle) (h2 : x.c ≠ .closed)
    (h3 : x.s ≠ .closed) : ∃ y, Work cap x y := by
  have i := reach_inv h
  obtain ⟨c, s, up, down, started, completed, handled⟩ := x
  -- the server can receive
  have recv : ∀ (g : Bytes) (q : Req) (w : Bytes), s = .reading g → q.ok → g ++ up ++ w = q.enc → up ≠ [] →
      ∃ y, Work cap ⟨c, s, up, down, started, completed, handled⟩ y := by
    intro g q w hs hq he hu
    obtain ⟨n, hn, h0, _⟩ := (good_req q hq).part g (up ++ w) (by rw [← List.append_assoc]; exact he.symm) (by simp [hu])
    exact ⟨_, .sRecv _ g n 1 hs hn (by decide) h0 (List.length_pos_iff.2 hu)⟩
  cases c with
  | idle => exact absurd rfl h1
  | closed => exact absurd rfl h2
  | sending q v =>
    cases s with
    | closed => exact absurd rfl h3
    | sending w => exact i.elim
    | reading g =>
      obtain ⟨i1, i2, i3, _⟩ := i
      by_cases hu : up = []
      · refine ⟨_, .cSend _ q v 1 rfl (by decide) (List.length_pos_iff.2 i1) ?_⟩
        simp only [hu, List.length_nil]
        omega
      · exact recv g q v rfl i2 i3 hu
  | reading q g' =>
    have cread : ∀ (a : Rep) (w : Bytes), fits q a → g' ++ down ++ w = a.enc → (down ≠ [] ∨ w = []) →
        ∃ y, Work cap ⟨.reading q g', s, up, down, started, completed, handled⟩ y := by
      intro a w hf he hor
      by_cases hd : down = []
      · have hw : w = [] := hor.resolve_left (fun h => h hd)
        rw [hd, hw, List.append_nil, List.append_nil] at he
        have := (good_rep q a hf).full
        rw [← he] at this
        exact ⟨_, .cDone _ q g' [] a rfl this⟩
      · obtain ⟨n, hn, h0, _⟩ := (good_rep q a hf).part g' (down ++ w) (by rw [← List.append_assoc]; exact he.symm) (by simp [hd])
        exact ⟨_, .cRecv _ q g' n 1 rfl hn (by decide) h0 (List.length_pos_iff.2 hd)⟩
    cases s with
    | closed => exact absurd rfl h3
    | sending v =>
      obtain ⟨_, _, i3, _, a, i5, i6, _⟩ := i
      by_cases hd : down = []
      · refine ⟨_, .sSend _ v 1 rfl (by decide) (List.length_pos_iff.2 i3) ?_⟩
        simp only [hd, List.length_nil]
        omega
      · exact cread a v i5 i6 (Or.inl hd)
    | reading g =>
      obtain ⟨i1, _, i3⟩ := i
      rcases i3 with ⟨j1, _⟩ | ⟨_, _, a, j3, j4, _⟩
      · by_cases hu : up = []
        · simp only [hu, List.append_nil] at j1
          have := (good_req q i1).full
          rw [← j1] at this
          cases hq : q with
          | add h b => exact ⟨_, .sHandle _ g [] q .accepted rfl this (by rw [hq]; exact trivial)⟩
          | get h => exact ⟨_, .sHandle _ g [] q .refused rfl this (by rw [hq]; exact trivial)⟩
          | tryAdd h b => exact ⟨_, .sHandle _ g [] q .accepted rfl this (by rw [hq]; exact trivial)⟩
        · exact recv g q [] rfl i1 (by rw [List.append_nil]; exact j1) hu
      · exact cread a [] j3 (by rw [List.append_nil]; exact j4) (Or.inr rfl)

/-- Bytes to be sent by the client. -/
def Cl.rest : Cl → Nat
  | .idle => 0
  | .sending _ v => 2 * v.length + 1
  | .reading _ _ => 1
  | .closed => 1

/-- Bytes to be sent by the server. -/
def Se.rest : Se → Nat
  | .sending v => 2 * v.length
  | _ => 0

/-- Work done on a connection. -/
theorem work_lt {cap : Nat} {x y : Conn} (h : Work cap x y) (i : Inv x) :
    Prod.Lex (· < ·) (· < ·) (y.started.length - y.handled.length, y.c.rest + y.s.rest + y.up.length + y.down.length)
      (x.started.length - x.handled.length, x.c.rest + x.s.rest + x.up.length + x.down.length) := by
  have hy := work_inv h i
  cases h with
  | cSend q v k hc h0 hk hcap =>
    refine Prod.Lex.right _ ?_
    have e : (Cl.after q (v.drop k)).rest ≤ 2 * (v.length - k) + 1 := by
      unfold Cl.after
      by_cases hv : v.drop k = []
      · rw [if_pos hv]; simp [Cl.rest]
      · rw [if_neg hv]; simp [Cl.rest]
    have e2 : (Cl.sending q v).rest = 2 * v.length + 1 := rfl
    simp only [hc, e2, List.length_append, List.length_take]
    omega
  | sRecv g n k hs hp h0 hk hu =>
    refine Prod.Lex.right _ ?_
    simp only [hs, Se.rest, List.length_drop]
    omega
  | sHandle g r q a hs hp hf =>
    refine Prod.Lex.left _ _ ?_
    have hle : x.handled.length + 1 ≤ x.started.length := by
      obtain ⟨c, s, up, down, started, completed, handled⟩ := x
      simp only at hs
      subst hs
      have fin : ∀ (b : Rep) (q' : Req), handled ++ [(q, a)] = completed ++ [(q', b)] → started = completed.map Prod.fst ++ [q'] →
          handled.length + 1 ≤ started.length := by
        intro b q' e1 e2
        have := congrArg List.length e1
        rw [List.length_append, List.length_append] at this
        rw [e2]
        simp at this ⊢
        omega
      cases c with
      | idle => exact hy.elim
      | sending q' v => exact hy.elim
      | reading q' g' =>
        obtain ⟨_, i2, _, _, b, _, _, i7⟩ := hy
        exact fin b q' i7 i2
      | closed =>
        obtain ⟨_, q', b, i2, i3⟩ := hy
        exact fin b q' i2 i3
    simp only [List.length_append, List.length_singleton]
    omega
  | sSend v k hs h0 hk hcap =>
    refine Prod.Lex.right _ ?_
    have e : (Se.after (v.drop k)).rest ≤ 2 * (v.length - k) := by
      unfold Se.after
      by_cases hv : v.drop k = []
      · rw [if_pos hv]; simp [Se.rest]
      · rw [if_neg hv]; simp [Se.rest]
    have e2 : (Se.sending v).rest = 2 * v.length := rfl
    simp only [hs, e2, List.length_append, List.length_take]
    omega
  | cRecv q g n k hc hp h0 hk hd =>
    refine Prod.Lex.right _ ?_
    simp only [hc, Cl.rest, List.length_drop]
    omega
  | cDone q g r a hc hp =>
    refine Prod.Lex.right _ ?_
    simp only [hc, Cl.rest]
    omega

/-- C65: requests end: there is no infinite work without start of new requests.  With
`C65_progress`: every request is answered if no side closes the connection. -/
theorem C65_ends {cap : Nat} (f : Nat → Conn) (h0 : Reach cap (f 0)) : ¬ ∀ n, Work cap (f n) (f (n + 1)) := by
  intro hw
  have hr : ∀ n, Reach cap (f n) := by
    intro n
    induction n with
    | zero => exact h0
    | succ n ih => exact ih.step (.work (hw n))
  have wf : WellFounded (Prod.Lex (· < ·) (· < ·) : Nat × Nat → Nat × Nat → Prop) :=
    (Prod.lex ⟨_, Nat.lt_wfRel.wf⟩ ⟨_, Nat.lt_wfRel.wf⟩).wf
  have key : ∀ (m : Nat × Nat) (n : Nat),
      ((f n).started.length - (f n).handled.length, (f n).c.rest + (f n).s.rest + (f n).up.length + (f n).down.length) = m → False := by
    intro m
    induction m using wf.induction with
    | _ m ih =>
      intro n e
      refine ih _ ?_ (n + 1) rfl
      rw [← e]
      exact work_lt (hw n) (reach_inv (hr n))
  exact key _ 0 rfl

/-- C65, stored connections: the client gets the one which was stored first of those to the
address which are still open; the others stay or were closed by the other side. -/
theorem C65_connect (closed : Nat → Bool) (addr : Nat) (l : List (Nat × Nat)) :
    (connect closed addr l).1 = (l.find? fun e => decide (e.1 = addr) && !closed e.2).map Prod.snd ∧
    (l.map Prod.snd).Perm ((connect closed addr l).1.toList ++ (connect closed addr l).2.1.map Prod.snd ++ (connect closed addr l).2.2) ∧
    (connect closed addr l).2.1.Sublist l ∧ ∀ s ∈ (connect closed addr l).2.2, closed s = true ∧ (addr, s) ∈ l := by
  induction l with
  | nil => exact ⟨rfl, List.Perm.refl _, List.Sublist.refl _, fun s h => (by cases h)⟩
  | cons e l ih =>
    obtain ⟨i1, i2, i3, i4⟩ := ih
    rw [connect]
    by_cases h1 : e.1 = addr
    · rw [if_pos h1]
      cases h2 : closed e.2 with
      | true =>
        rw [if_pos rfl]
        refine ⟨?_, ?_, List.Sublist.cons _ i3, ?_⟩
        · rw [List.find?_cons_of_neg (by simp [h2])]
          exact i1
        · simp only [List.map_cons]
          exact (List.Perm.cons _ i2).trans (List.perm_middle.symm)
        · intro s hs
          rcases List.mem_cons.1 hs with rfl | hs
          · exact ⟨h2, by rw [← h1]; exact List.mem_cons_self⟩
          · exact ⟨(i4 s hs).1, List.mem_cons_of_mem _ (i4 s hs).2⟩
      | false =>
        rw [if_neg (by simp)]
        refine ⟨?_, ?_, List.Sublist.cons _ (List.Sublist.refl _), fun s h => (by cases h)⟩
        · rw [List.find?_cons_of_pos (by simp [h1, h2])]
          rfl
        · simp
    · rw [if_neg h1]
      refine ⟨?_, ?_, List.Sublist.cons_cons _ i3, fun s hs => ⟨(i4 s hs).1, List.mem_cons_of_mem _ (i4 s hs).2⟩⟩
      · rw [List.find?_cons_of_neg (by simp [h1])]
        exact i1
      · simp only [List.map_cons]
        refine (List.Perm.cons _ i2).trans ?_
        rw [List.append_assoc, List.append_assoc, List.cons_append]
        exact List.perm_middle.symm

/-- C65, stored connections: at most `limit` are stored, sockets are stored or closed. -/
theorem C65_store (limit addr s : Nat) (l : List (Nat × Nat)) :
    (store limit addr s l).1.length ≤ limit ∧
    (s :: l.map Prod.snd).Perm ((store limit addr s l).1.map Prod.snd ++ (store limit addr s l).2) ∧
    (l.length < limit → (store limit addr s l).1 = l ++ [(addr, s)]) := by
  unfold store
  by_cases h : (l ++ [(addr, s)]).length > limit
  · rw [if_pos h]
    refine ⟨Nat.zero_le _, ?_, ?_⟩
    · simp only [List.map_nil, List.nil_append, List.map_append, List.map_cons]
      exact (List.perm_append_singleton _ _).symm
    · intro hl
      rw [List.length_append, List.length_singleton] at h
      omega
  · rw [if_neg h]
    refine ⟨Nat.le_of_not_lt h, ?_, fun _ => rfl⟩
    simp only [List.append_nil, List.map_append, List.map_cons, List.map_nil]
    exact (List.perm_append_singleton _ _).symm

/-! ### Cases meeting the hypotheses -/

/-- A GET was sent in two pieces. -/
example : ∃ x, Reach 20 x ∧ x.s = .reading (enc 8 1) ∧ x.up = encBytes [7, 9] ∧ x.c = .reading (.get [7, 9]) [] := by
  have r0 : Reach 20 Conn.new := .new
  have r1 := r0.step (.start _ (.get [7, 9]) rfl (by show [7, 9].length < 2 ^ 63; decide))
  have r2 := r1.step (.work (.cSend _ _ _ 10 rfl (by decide) (by decide) (by decide)))
  have r3 := r2.step (.work (.sRecv _ [] 8 8 rfl rfl (by decide) (by decide) (by decide)))
  have r4 := r3.step (.work (.cSend _ (.get [7, 9]) [0, 0, 0, 0, 0, 0, 7, 9] 8 rfl (by decide) (by decide) (by decide)))
  exact ⟨_, r4, rfl, rfl, rfl⟩

example : connect (fun s => s == 11) 3 [(3, 11), (4, 12), (3, 13), (3, 14)] = (some 13, [(4, 12), (3, 14)], [11]) := by decide

example : store 2 5 15 [(3, 13)] = ([(3, 13), (5, 15)], []) ∧ store 2 6 16 [(3, 13), (5, 15)] = ([], [13, 15, 16]) := by decide

end Laik.Cn
