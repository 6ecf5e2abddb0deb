import Verif.Model.Async
/-!
# Executions of converted sequences
-/

namespace Laik

variable {K β : Type}

/-- Receives of a sequence as pending operations. -/
def recvTab (id : Nat) (cnt : Nat → Nat) : List (NbAct K β) → List Pend
  | [] => []
  | .send _ _ _ :: l => recvTab (id + 1) cnt l
  | .recv p a n :: l => .rcv id p a n (cnt p) :: recvTab (id + 1) (incAt cnt p) l
  | .other _ :: l => recvTab id cnt l

def Pend.item : Pend → NItem K β
  | .rcv i p a n _ => .irecv i p a n
  | .snd i p a n _ => .isend i p a n

theorem irecvs_tab (l : List (NbAct K β)) : ∀ id cnt, irecvsOf id l = (recvTab id cnt l).map Pend.item := by
  induction l with
  | nil => intro id cnt; rfl
  | cons a l ih =>
    intro id cnt
    cases a with
    | send p a n => exact ih _ _
    | recv p a n => simp only [irecvsOf, recvTab, List.map_cons, Pend.item]; rw [ih]
    | other o => exact ih _ _

/-- The operations are numbered according to the counts. -/
def Numbered (cnt : Nat → Nat) : List Pend → Prop
  | [] => True
  | .rcv _ p _ _ k :: l => k = cnt p ∧ Numbered (incAt cnt p) l
  | .snd _ _ _ _ _ :: _ => False

theorem recvTab_numbered (l : List (NbAct K β)) : ∀ id cnt, Numbered cnt (recvTab id cnt l) := by
  induction l with
  | nil => intro id cnt; trivial
  | cons a l ih =>
    intro id cnt
    cases a with
    | send p a n => exact ih _ _
    | recv p a n => exact ⟨rfl, ih _ _⟩
    | other o => exact ih _ _

theorem recvTab_mem (l : List (NbAct K β)) : ∀ id cnt, ∀ r ∈ recvTab id cnt l,
    id ≤ r.id ∧ ∃ i p a n k, r = .rcv i p a n k ∧ NbAct.recv p a n ∈ l := by
  induction l with
  | nil => intro id cnt r hr; simp [recvTab] at hr
  | cons a l ih =>
    intro id cnt r hr
    have fin : ∀ id' cnt', r ∈ recvTab id' cnt' l → id ≤ id' →
        id ≤ r.id ∧ ∃ i p b n k, r = .rcv i p b n k ∧ NbAct.recv p b n ∈ a :: l := by
      intro id' cnt' h hle
      obtain ⟨h1, i, p, b, n, k, e, hm⟩ := ih _ _ r h
      exact ⟨by omega, i, p, b, n, k, e, List.mem_cons_of_mem _ hm⟩
    cases a with
    | send p a n => exact fin _ _ hr (by omega)
    | recv p a n =>
      rcases List.mem_cons.1 hr with rfl | hr
      · exact ⟨Nat.le_refl _, _, _, _, _, _, rfl, List.mem_cons_self⟩
      · exact fin _ _ hr (by omega)
    | other o => exact fin _ _ hr (by omega)

theorem recvTab_lt (l : List (NbAct K β)) : ∀ id cnt, (recvTab id cnt l).Pairwise (fun a b => a.id < b.id) := by
  induction l with
  | nil => intro id cnt; simp [recvTab]
  | cons a l ih =>
    intro id cnt
    cases a with
    | send p a n => exact ih _ _
    | recv p a n =>
      simp only [recvTab, List.pairwise_cons]
      refine ⟨?_, ih _ _⟩
      intro r hr
      exact (recvTab_mem l _ _ r hr).1
    | other o => exact ih _ _

theorem recvTab_nodup (l : List (NbAct K β)) (id cnt) : (recvTab id cnt l).Nodup := by
  have := recvTab_lt l id cnt
  rw [List.nodup_iff_pairwise_ne]
  refine this.imp ?_
  rintro a b h rfl
  omega

/-- Buffers of different receives do not overlap. -/
theorem recvTab_disj (l : List (NbAct K β)) (hl : AsyncIndep l) : ∀ id cnt, (recvTab id cnt l).Pairwise (fun r r' =>
    ∀ i p a n k i' p' a' n' k', r = .rcv i p a n k → r' = .rcv i' p' a' n' k' →
      ∀ x, a ≤ x → x < a + n → ¬ (a' ≤ x ∧ x < a' + n')) := by
  induction l with
  | nil => intro id cnt; simp [recvTab]
  | cons a l ih =>
    intro id cnt
    unfold AsyncIndep at hl
    rw [List.pairwise_cons] at hl
    have ih := ih hl.2
    cases a with
    | send p a n => exact ih _ _
    | recv p a n =>
      simp only [recvTab, List.pairwise_cons]
      refine ⟨?_, ih _ _⟩
      rintro r hr i q b m k i' p' a' n' k' e rfl x h1 h2 ⟨h3, h4⟩
      cases e
      obtain ⟨_, i2, p2, a2, n2, k2, e, hm⟩ := recvTab_mem l _ _ _ hr
      cases e
      have := ((hl.1 _ hm).1 _ _ _ rfl x h3 h4).2
      exact this ⟨h1, h2⟩
    | other o => exact ih _ _

theorem recvTab_disj' (l : List (NbAct K β)) (hl : AsyncIndep l) (id cnt) {i p a n k i' p' a' n' k'}
    (h : Pend.rcv i p a n k ∈ recvTab id cnt l) (h' : Pend.rcv i' p' a' n' k' ∈ recvTab id cnt l)
    (hne : Pend.rcv i p a n k ≠ .rcv i' p' a' n' k') (x : Nat) (h1 : a ≤ x ∧ x < a + n) : ¬ (a' ≤ x ∧ x < a' + n') := by
  have hd := recvTab_disj l hl id cnt
  rw [List.pairwise_iff_getElem] at hd
  obtain ⟨u, hu, eu⟩ := List.getElem_of_mem h
  obtain ⟨v, hv, ev⟩ := List.getElem_of_mem h'
  rcases Nat.lt_trichotomy u v with c | c | c
  · exact hd u v hu hv c _ _ _ _ _ _ _ _ _ _ eu ev x h1.1 h1.2
  · subst c
    exact absurd (eu.symm.trans ev) hne
  · intro h2
    exact hd v u hv hu c _ _ _ _ _ _ _ _ _ _ ev eu x h2.1 h2.2 h1

/-- Relation of the state of the blocking and non-blocking execution; `U` are
the receives not started yet. -/
structure AInv (inp : Nat → Nat → Nat → β) (U : List Pend) (id : Nat) (rest : List (NbAct K β)) (b : BSt K β) (st : NSta K β) :
    Prop where
  nodup : st.pend.Nodup
  indep : AsyncIndep rest
  disjU : ∀ r ∈ U, r ∉ st.pend
  pend : ∀ r ∈ st.pend, r ∈ recvTab id b.nrecv rest ∨
    ∃ i p a n k, r = .snd i p a n k ∧ i < id ∧ (b.sent p)[k]? = some (readMem st.s.mem a n) ∧
      ∀ x, a ≤ x → x < a + n → ∀ c ∈ rest, ¬ c.writes x
  done : ∀ i p a n k, Pend.rcv i p a n k ∈ recvTab id b.nrecv rest → Pend.rcv i p a n k ∉ U →
    Pend.rcv i p a n k ∉ st.pend → ∀ x, a ≤ x → x < a + n → st.s.mem x = inp p k (x - a)
  mem : ∀ x, (∀ i p a n k, Pend.rcv i p a n k ∈ recvTab id b.nrecv rest → Pend.rcv i p a n k ∉ U →
    Pend.rcv i p a n k ∉ st.pend → ¬ (a ≤ x ∧ x < a + n)) → st.s.mem x = b.s.mem x
  pos : st.s.pos = b.s.pos
  out : st.s.out = b.s.out
  nsend : ∀ p, st.nsend p = (b.sent p).length
  sent : ∀ p k, (∀ i a n, Pend.snd i p a n k ∉ st.pend) → st.sent p k = (b.sent p)[k]?

variable [DecidableEq K]

omit [DecidableEq K] in
theorem readMem_congr_buf {m m' : Nat → β} {a n : Nat} (h : ∀ x, a ≤ x → x < a + n → m x = m' x) :
    readMem m a n = readMem m' a n := by
  unfold readMem
  apply List.map_congr_left
  intro i hi
  rw [List.mem_range] at hi
  exact h _ (by omega) (by omega)

theorem storeMem_in {m : Nat → β} {a n v x} (h : a ≤ x ∧ x < a + n) : storeMem m a n v x = v (x - a) := if_pos h

theorem storeMem_out {m : Nat → β} {a n v x} (h : ¬ (a ≤ x ∧ x < a + n)) : storeMem m a n v x = m x := if_neg h

theorem AInv.compl {inp : Nat → Nat → Nat → β} {U id} {rest : List (NbAct K β)} {b st} (h : AInv inp U id rest b st)
    (r : Pend) (hr : r ∈ st.pend) : AInv inp U id rest b (r.eff inp st) := by
  have hmem : ∀ r' : Pend, r' ∈ st.pend.erase r ↔ r' ≠ r ∧ r' ∈ st.pend := fun r' => h.nodup.mem_erase_iff
  cases r with
  | rcv i p a n k =>
    have hT : Pend.rcv i p a n k ∈ recvTab id b.nrecv rest := by
      rcases h.pend _ hr with h1 | ⟨_, _, _, _, _, e, _⟩
      · exact h1
      · cases e
    have hU : Pend.rcv i p a n k ∉ U := fun hu => h.disjU _ hu hr
    obtain ⟨_, i', p', a', n', k', e, hrec⟩ := recvTab_mem rest _ _ _ hT
    cases e
    refine ⟨h.nodup.erase _, h.indep, fun r hr' hp => h.disjU r hr' ((hmem r).1 hp).2, ?_, ?_, ?_, h.pos, h.out, h.nsend, ?_⟩
    · intro r' hr'
      rcases h.pend r' ((hmem r').1 hr').2 with h1 | ⟨i', p', a', n', k', e, h1, h2, h3⟩
      · exact Or.inl h1
      · refine Or.inr ⟨i', p', a', n', k', e, h1, ?_, h3⟩
        rw [h2]
        congr 1
        apply readMem_congr_buf
        intro x hx1 hx2
        exact (storeMem_out (fun hx => h3 x hx1 hx2 _ hrec hx)).symm
    · intro i' p' a' n' k' h1 h2 h3 x hx1 hx2
      by_cases c : Pend.rcv i' p' a' n' k' = .rcv i p a n k
      · cases c
        exact storeMem_in ⟨hx1, hx2⟩
      · have : Pend.rcv i' p' a' n' k' ∉ st.pend := fun hp => h3 ((hmem _).2 ⟨c, hp⟩)
        have hd := recvTab_disj' rest h.indep _ _ h1 hT c x ⟨hx1, hx2⟩
        refine Eq.trans (storeMem_out hd) ?_
        exact h.done _ _ _ _ _ h1 h2 this x hx1 hx2
    · intro x hx
      have hd := hx i p a n k hT hU (fun hp => ((hmem _).1 hp).1 rfl)
      refine Eq.trans (storeMem_out hd) (h.mem x ?_)
      intro i' p' a' n' k' h1 h2 h3
      exact hx i' p' a' n' k' h1 h2 (fun hp => h3 ((hmem _).1 hp).2)
    · intro q j hq
      refine h.sent q j ?_
      intro i' a' n' hp
      exact hq i' a' n' ((hmem _).2 ⟨by simp, hp⟩)
  | snd i p a n k =>
    have hs : (b.sent p)[k]? = some (readMem st.s.mem a n) := by
      rcases h.pend _ hr with h1 | ⟨_, _, _, _, _, e, _, h2, _⟩
      · obtain ⟨_, _, _, _, _, _, e, _⟩ := recvTab_mem rest _ _ _ h1
        cases e
      · cases e
        exact h2
    refine ⟨h.nodup.erase _, h.indep, fun r hr' hp => h.disjU r hr' ((hmem r).1 hp).2, ?_, ?_, ?_, h.pos, h.out, h.nsend, ?_⟩
    · intro r' hr'
      exact h.pend r' ((hmem r').1 hr').2
    · intro i' p' a' n' k' h1 h2 h3
      exact h.done i' p' a' n' k' h1 h2 (fun hp => h3 ((hmem _).2 ⟨by simp, hp⟩))
    · intro x hx
      refine h.mem x ?_
      intro i' p' a' n' k' h1 h2 h3
      exact hx i' p' a' n' k' h1 h2 (fun hp => h3 ((hmem _).1 hp).2)
    · intro q j hq
      show setSent st.sent p k (readMem st.s.mem a n) q j = _
      unfold setSent
      by_cases c : q = p ∧ j = k
      · rw [if_pos c, c.1, c.2, hs]
      · rw [if_neg c]
        refine h.sent q j ?_
        intro i' a' n' hp
        refine hq i' a' n' ((hmem _).2 ⟨?_, hp⟩)
        intro e
        cases e
        exact c ⟨rfl, rfl⟩

theorem AInv.irecv {inp : Nat → Nat → Nat → β} {U id} {rest : List (NbAct K β)} {b st} {i p a n k}
    (h : AInv inp (.rcv i p a n k :: U) id rest b st) (hT : Pend.rcv i p a n k ∈ recvTab id b.nrecv rest)
    (hU : Pend.rcv i p a n k ∉ U) :
    AInv inp U id rest b { st with npost := incAt st.npost p, pend := .rcv i p a n k :: st.pend } := by
  refine ⟨?_, h.indep, ?_, ?_, ?_, ?_, h.pos, h.out, h.nsend, ?_⟩
  · exact List.nodup_cons.2 ⟨h.disjU _ List.mem_cons_self, h.nodup⟩
  · intro r hr hp
    rcases List.mem_cons.1 hp with rfl | hp
    · exact hU hr
    · exact h.disjU r (List.mem_cons_of_mem _ hr) hp
  · intro r hr
    rcases List.mem_cons.1 hr with rfl | hr
    · exact Or.inl hT
    · exact h.pend r hr
  · intro i' p' a' n' k' h1 h2 h3
    rw [List.mem_cons, not_or] at h3
    exact h.done i' p' a' n' k' h1 (by rw [List.mem_cons, not_or]; exact ⟨h3.1, h2⟩) h3.2
  · intro x hx
    refine h.mem x ?_
    intro i' p' a' n' k' h1 h2 h3
    rw [List.mem_cons, not_or] at h2
    exact hx i' p' a' n' k' h1 h2.2 (by rw [List.mem_cons, not_or]; exact ⟨h2.1, h3⟩)
  · intro q j hq
    exact h.sent q j (fun i' a' n' hp => hq i' a' n' (List.mem_cons_of_mem _ hp))

theorem AInv.isend {inp : Nat → Nat → Nat → β} {id p a n} {rest : List (NbAct K β)} {b st}
    (h : AInv inp [] id (.send p a n :: rest) b st) :
    AInv inp [] (id + 1) rest ((NbAct.send p a n).run inp b)
      { st with nsend := incAt st.nsend p, pend := .snd id p a n (st.nsend p) :: st.pend } := by
  have hi := h.indep
  unfold AsyncIndep at hi
  rw [List.pairwise_cons] at hi
  have hnot : Pend.snd id p a n (st.nsend p) ∉ st.pend := by
    intro hp
    rcases h.pend _ hp with h1 | ⟨i', _, _, _, _, e, h2, _⟩
    · obtain ⟨_, _, _, _, _, _, e, _⟩ := recvTab_mem _ _ _ _ h1
      cases e
    · cases e
      omega
  have hread : readMem st.s.mem a n = readMem b.s.mem a n := by
    apply readMem_congr_buf
    intro x hx1 hx2
    refine h.mem x ?_
    rintro i' p' a' n' k' h1 _ _ ⟨h3, h4⟩
    obtain ⟨_, _, _, _, _, _, e, hm⟩ := recvTab_mem rest _ _ _ h1
    cases e
    exact ((hi.1 _ hm).1 _ _ _ rfl x h3 h4).1 ⟨hx1, hx2⟩
  have happ : ∀ (q j : Nat) (v : List β), (b.sent q)[j]? = some v → (appAt b.sent p (readMem b.s.mem a n) q)[j]? = some v := by
    intro q j v hv
    unfold appAt
    split
    · rw [List.getElem?_append_left]
      · exact hv
      · exact (List.getElem?_eq_some_iff.1 hv).1
    · exact hv
  refine ⟨List.nodup_cons.2 ⟨hnot, h.nodup⟩, hi.2, by simp, ?_, ?_, ?_, h.pos, h.out, ?_, ?_⟩
  · intro r hr
    rcases List.mem_cons.1 hr with rfl | hr
    · refine Or.inr ⟨id, p, a, n, _, rfl, by omega, ?_, ?_⟩
      · show (appAt b.sent p (readMem b.s.mem a n) p)[st.nsend p]? = some (readMem st.s.mem a n)
        rw [hread, h.nsend]
        simp [appAt]
      · intro x hx1 hx2 c hc
        exact (hi.1 c hc).2 _ _ _ rfl x hx1 hx2
    · rcases h.pend r hr with h1 | ⟨i', p', a', n', k', e, h1, h2, h3⟩
      · exact Or.inl h1
      · exact Or.inr ⟨i', p', a', n', k', e, by omega, happ _ _ _ h2, fun x h4 h5 c hc => h3 x h4 h5 c (List.mem_cons_of_mem _ hc)⟩
  · intro i' p' a' n' k' h1 h2 h3
    exact h.done i' p' a' n' k' h1 h2 (fun hp => h3 (List.mem_cons_of_mem _ hp))
  · intro x hx
    refine h.mem x ?_
    intro i' p' a' n' k' h1 h2 h3
    refine hx i' p' a' n' k' h1 h2 ?_
    rw [List.mem_cons, not_or]
    exact ⟨by simp, h3⟩
  · intro q
    show incAt st.nsend p q = (appAt b.sent p _ q).length
    unfold incAt appAt
    split
    · rw [h.nsend]; simp
    · exact h.nsend q
  · intro q j hq
    show st.sent q j = (appAt b.sent p (readMem b.s.mem a n) q)[j]?
    have h1 := h.sent q j (fun i' a' n' hp => hq i' a' n' (List.mem_cons_of_mem _ hp))
    unfold appAt
    split
    · rename_i c
      subst c
      have hj : j ≠ (b.sent q).length := by
        intro e
        refine hq id a n ?_
        rw [e, h.nsend]
        exact List.mem_cons_self
      rw [h1]
      by_cases hlt : j < (b.sent q).length
      · rw [List.getElem?_append_left hlt]
      · rw [List.getElem?_eq_none (by omega), List.getElem?_eq_none (by simp; omega)]
    · exact h1

theorem AInv.waitRecv {inp : Nat → Nat → Nat → β} {id p a n} {rest : List (NbAct K β)} {b st}
    (h : AInv inp [] id (.recv p a n :: rest) b st) (hw : ∀ r ∈ st.pend, r.id ≠ id) :
    AInv inp [] (id + 1) rest ((NbAct.recv p a n).run inp b) st := by
  have hi := h.indep
  unfold AsyncIndep at hi
  rw [List.pairwise_cons] at hi
  have hT : Pend.rcv id p a n (b.nrecv p) ∈ recvTab id b.nrecv (NbAct.recv p a n :: rest) := List.mem_cons_self
  have hnp : Pend.rcv id p a n (b.nrecv p) ∉ st.pend := fun hp => hw _ hp rfl
  have hdone := h.done _ _ _ _ _ hT (by simp) hnp
  have hsub : ∀ r, r ∈ recvTab (id + 1) (incAt b.nrecv p) rest → r ∈ recvTab id b.nrecv (NbAct.recv p a n :: rest) :=
    fun r hr => List.mem_cons_of_mem _ hr
  have hne : ∀ r, r ∈ recvTab (id + 1) (incAt b.nrecv p) rest → r ≠ Pend.rcv id p a n (b.nrecv p) := by
    rintro r hr rfl
    have := (recvTab_mem _ _ _ _ hr).1
    simp only [Pend.id] at this
    omega
  refine ⟨h.nodup, hi.2, by simp, ?_, ?_, ?_, h.pos, h.out, h.nsend, h.sent⟩
  · intro r hr
    rcases h.pend r hr with h1 | ⟨i', p', a', n', k', e, h1, h2, h3⟩
    · rcases List.mem_cons.1 h1 with rfl | h1
      · exact absurd hr hnp
      · exact Or.inl h1
    · exact Or.inr ⟨i', p', a', n', k', e, by omega, h2, fun x h4 h5 c hc => h3 x h4 h5 c (List.mem_cons_of_mem _ hc)⟩
  · intro i' p' a' n' k' h1 h2 h3
    exact h.done i' p' a' n' k' (hsub _ h1) h2 h3
  · intro x hx
    show _ = storeMem b.s.mem a n (inp p (b.nrecv p)) x
    by_cases c : a ≤ x ∧ x < a + n
    · rw [storeMem_in c]
      exact hdone x c.1 c.2
    · rw [storeMem_out c]
      refine h.mem x ?_
      intro i' p' a' n' k' h1 h2 h3
      rcases List.mem_cons.1 h1 with e | h1
      · cases e
        exact c
      · exact hx i' p' a' n' k' h1 h2 h3

theorem AInv.other {inp : Nat → Nat → Nat → β} {id o} {rest : List (NbAct K β)} {b st}
    (h : AInv inp [] id (.other o :: rest) b st) :
    AInv inp [] id rest ((NbAct.other o).run inp b) { st with s := o.run st.s } := by
  have hi := h.indep
  unfold AsyncIndep at hi
  rw [List.pairwise_cons] at hi
  have hfree : ∀ x, o.R x ∨ o.W x = true → st.s.mem x = b.s.mem x := by
    intro x hx
    refine h.mem x ?_
    rintro i' p' a' n' k' h1 _ _ ⟨h3, h4⟩
    obtain ⟨_, _, _, _, _, _, e, hm⟩ := recvTab_mem rest _ _ _ h1
    cases e
    have := (hi.1 _ hm).1 _ _ _ rfl x h3 h4
    rcases hx with hx | hx
    · exact this.1 hx
    · exact this.2 hx
  have hpos : o.posOf st.s = o.posOf b.s := by unfold MOp.posOf; rw [h.pos]
  refine ⟨h.nodup, hi.2, by simp, ?_, ?_, ?_, ?_, ?_, h.nsend, h.sent⟩
  · intro r hr
    rcases h.pend r hr with h1 | ⟨i', p', a', n', k', e, h1, h2, h3⟩
    · exact Or.inl h1
    · refine Or.inr ⟨i', p', a', n', k', e, h1, ?_, fun x h4 h5 c hc => h3 x h4 h5 c (List.mem_cons_of_mem _ hc)⟩
      refine Eq.trans h2 ?_
      congr 1
      apply readMem_congr_buf
      intro x hx1 hx2
      have : ¬ o.W x = true := h3 x hx1 hx2 _ List.mem_cons_self
      show _ = if o.W x then _ else _
      rw [if_neg this]
  · intro i' p' a' n' k' h1 h2 h3 x hx1 hx2
    obtain ⟨_, _, _, _, _, _, e, hm⟩ := recvTab_mem rest _ _ _ h1
    cases e
    have : ¬ o.W x = true := ((hi.1 _ hm).1 _ _ _ rfl x hx1 hx2).2
    show (if o.W x then _ else _) = _
    rw [if_neg this]
    exact h.done i' p' a' n' k' h1 h2 h3 x hx1 hx2
  · intro x hx
    show (if o.W x then _ else _) = (if o.W x then _ else _)
    by_cases c : o.W x = true
    · rw [if_pos c, if_pos c, hpos]
      exact o.val_local _ _ _ _ (fun y hy => hfree y (Or.inl hy)) c
    · rw [if_neg c, if_neg c]
      exact h.mem x hx
  · funext k
    show (if o.key = some k then _ else _) = (if o.key = some k then _ else _)
    rw [h.pos]
  · funext k
    show (if o.key = some k then _ else _) = (if o.key = some k then _ else _)
    rw [h.out, o.out_local _ _ (fun y hy => hfree y (Or.inl hy))]

/-- States reached by the converted sequence. -/
def AReach (inp : Nat → Nat → Nat → β) (l : List (NbAct K β)) (s : MSt K β) (c : List (NItem K β) × NSta K β) : Prop :=
  (∃ T U, recvTab 0 (fun _ => 0) l = T ++ U ∧ Numbered c.2.npost U ∧ AInv inp U 0 l (BSt.start s) c.2 ∧
    ((∃ n, c.1 = .req n :: (U.map Pend.item ++ (midsOf 0 l ++ swaitsOf 0 l))) ∨
    c.1 = U.map Pend.item ++ (midsOf 0 l ++ swaitsOf 0 l))) ∨
  (∃ dn rest id, l = dn ++ rest ∧ c.1 = midsOf id rest ++ swaitsOf 0 l ∧ AInv inp [] id rest (runB inp dn (BSt.start s)) c.2) ∨
  ((∀ i ∈ c.1, ∃ k, i = .wait k) ∧ ∃ id, AInv inp [] id [] (runB inp l (BSt.start s)) c.2)

theorem swaits_wait (l : List (NbAct K β)) : ∀ id, ∀ i ∈ swaitsOf id l, ∃ k, i = .wait k := by
  induction l with
  | nil => intro id i hi; simp [swaitsOf] at hi
  | cons a l ih =>
    intro id i hi
    cases a with
    | send p a n =>
      rcases List.mem_cons.1 hi with rfl | hi
      · exact ⟨_, rfl⟩
      · exact ih _ i hi
    | recv p a n => exact ih _ i hi
    | other o => exact ih _ i hi

theorem areach_waits {inp : Nat → Nat → Nat → β} {l : List (NbAct K β)} {s : MSt K β} {P P' st st'}
    (hP : ∀ i ∈ P, ∃ k, i = NItem.wait k) {id} (h : AInv inp [] id [] (runB inp l (BSt.start s)) st)
    (hst : AsStep inp (P, st) (P', st')) :
    AReach inp l s (P', st') := by
  refine Or.inr (Or.inr ?_)
  cases hst with
  | req c => obtain ⟨k, e⟩ := hP _ List.mem_cons_self; cases e
  | isend i p a n => obtain ⟨k, e⟩ := hP _ List.mem_cons_self; cases e
  | irecv i p a n => obtain ⟨k, e⟩ := hP _ List.mem_cons_self; cases e
  | other o => obtain ⟨k, e⟩ := hP _ List.mem_cons_self; cases e
  | wait i => exact ⟨fun i hi => hP i (List.mem_cons_of_mem _ hi), id, h⟩
  | compl r P st hr => exact ⟨hP, id, h.compl r hr⟩

theorem runB_snoc (inp : Nat → Nat → Nat → β) (l : List (NbAct K β)) (a : NbAct K β) (b : BSt K β) :
    runB inp (l ++ [a]) b = a.run inp (runB inp l b) := by
  unfold runB
  rw [List.foldl_append]
  rfl

theorem areach_mids {inp : Nat → Nat → Nat → β} {l : List (NbAct K β)} {s : MSt K β} {P' st st' dn rest id}
    (hl : l = dn ++ rest) (h : AInv inp [] id rest (runB inp dn (BSt.start s)) st)
    (hst : AsStep inp (midsOf id rest ++ swaitsOf 0 l, st) (P', st')) :
    AReach inp l s (P', st') := by
  cases rest with
  | nil =>
    rw [List.append_nil] at hl
    subst hl
    exact areach_waits (by simpa [midsOf] using swaits_wait l 0) h hst
  | cons a rest =>
    have hl' : l = (dn ++ [a]) ++ rest := by rw [hl]; simp
    cases a with
    | send p a n =>
      simp only [midsOf, List.cons_append] at hst
      cases hst with
      | isend => exact Or.inr (Or.inl ⟨dn ++ [.send p a n], rest, id + 1, hl', rfl, by rw [runB_snoc]; exact h.isend⟩)
      | compl r _ _ hr => exact Or.inr (Or.inl ⟨dn, .send p a n :: rest, id, hl, rfl, h.compl r hr⟩)
    | recv p a n =>
      simp only [midsOf, List.cons_append] at hst
      cases hst with
      | wait _ _ _ hw => exact Or.inr (Or.inl ⟨dn ++ [.recv p a n], rest, id + 1, hl', rfl, by rw [runB_snoc]; exact h.waitRecv hw⟩)
      | compl r _ _ hr => exact Or.inr (Or.inl ⟨dn, .recv p a n :: rest, id, hl, rfl, h.compl r hr⟩)
    | other o =>
      simp only [midsOf, List.cons_append] at hst
      cases hst with
      | other => exact Or.inr (Or.inl ⟨dn ++ [.other o], rest, id, hl', rfl, by rw [runB_snoc]; exact h.other⟩)
      | compl r _ _ hr => exact Or.inr (Or.inl ⟨dn, .other o :: rest, id, hl, rfl, h.compl r hr⟩)

theorem areach_step {inp : Nat → Nat → Nat → β} {l : List (NbAct K β)} {s : MSt K β} {P st P' st'}
    (h : AReach inp l s (P, st)) (hst : AsStep inp (P, st) (P', st')) :
    AReach inp l s (P', st') := by
  rcases h with ⟨T, U, hT, hN, hI, ⟨n, hP⟩ | hP⟩ | ⟨dn, rest, id, hl, hP, hI⟩ | ⟨hP, id, hI⟩
  · simp only at hP
    subst hP
    cases hst with
    | req => exact Or.inl ⟨T, U, hT, hN, hI, Or.inr rfl⟩
    | compl r _ _ hr =>
      refine Or.inl ⟨T, U, hT, ?_, hI.compl r hr, Or.inl ⟨n, rfl⟩⟩
      cases r <;> exact hN
  · simp only at hP
    subst hP
    cases U with
    | nil =>
      refine areach_mids (dn := []) rfl hI ?_
      exact hst
    | cons r U =>
      cases r with
      | snd => exact hN.elim
      | rcv i p a n k =>
        simp only [List.map_cons, Pend.item, List.cons_append] at hst
        have hm : Pend.rcv i p a n k ∈ recvTab 0 (fun _ => 0) l := by rw [hT]; simp
        have hnd := recvTab_nodup l 0 (fun _ => 0)
        rw [hT, List.nodup_append] at hnd
        cases hst with
        | irecv =>
          obtain ⟨hk, hN⟩ := hN
          replace hk : k = st.npost p := hk
          subst hk
          exact Or.inl ⟨T ++ [.rcv i p a n (st.npost p)], U, by rw [hT]; simp, hN,
            hI.irecv hm (List.nodup_cons.1 hnd.2.1).1, Or.inr rfl⟩
        | compl r _ _ hr =>
          refine Or.inl ⟨T, .rcv i p a n k :: U, hT, ?_, hI.compl r hr, Or.inr rfl⟩
          cases r <;> exact hN
  · simp only at hP
    subst hP
    exact areach_mids hl hI hst
  · exact areach_waits hP hI hst

theorem AsSteps.head {inp : Nat → Nat → Nat → β} {a b c : List (NItem K β) × NSta K β} (h : AsStep inp a b) (h' : AsSteps inp b c) :
    AsSteps inp a c := by
  induction h' with
  | refl => exact .tail _ _ _ (.refl _) h
  | tail b c _ h2 ih => exact .tail _ _ _ ih h2

end Laik
