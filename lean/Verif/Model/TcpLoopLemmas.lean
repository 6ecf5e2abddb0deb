import Verif.Model.TcpLoop

/-!
# Invariant of the event loop of the TCP2 backend
-/

namespace Laik.Lp

theorem upd_same {A : Type} (f : Nat → A) (i : Nat) (v : A) : upd f i v i = v := if_pos rfl

theorem upd_other {A : Type} (f : Nat → A) {i j : Nat} (v : A) (h : j ≠ i) : upd f i v j = f j := if_neg h

/-- A result is a state with `P` or a fault with `A`. -/
def Out (P : St → Prop) (A : Fault → Prop) : Except Fault St → Prop
  | .ok s => P s
  | .error f => A f

theorem Out.next {P Q : St → Prop} {A : Fault → Prop} {x : Except Fault St} {f : St → Except Fault St}
    (h : Out P A x) (hf : ∀ s, P s → Out Q A (f s)) : Out Q A (Lp.next x f) := by
  cases x with
  | ok s => exact hf s h
  | error e => exact h

theorem Out.mono {P Q : St → Prop} {A : Fault → Prop} {x : Except Fault St} (h : Out P A x) (hp : ∀ s, P s → Q s) :
    Out Q A x := by
  cases x with
  | ok s => exact hp s h
  | error e => exact h

/-- Faults caused by clients, by too many connections, or no execution. -/
def Ext : Fault → Prop
  | .nullCb => False
  | .addTwice => False
  | .empty => False
  | _ => True

/-- Invariant.  `used`: descriptors open before, `L`: listening socket. -/
structure Inv (used : Nat → Bool) (L : Nat) (s : St) : Prop where
  rset : ∀ i, s.rset i = (s.fds i).cb.isSome
  reg : ∀ i, (s.fds i).cb ≠ none → i ≤ s.maxfds ∧ i < maxFds ∧ s.isOpen i = true ∧ (s.fds i).buf = true
  noreg : ∀ i, (s.fds i).cb = none → (s.fds i).buf = false ∧ (s.fds i).part = none
  listen : ∀ i, (s.fds i).cb = some .connect ↔ i = L
  top : (s.fds s.maxfds).cb ≠ none
  peer : ∀ k f, s.peerFd k = some f → (s.fds f).cb = some .bytes ∧ (s.fds f).lid = some k
  opens : ∀ i, s.isOpen i = true ↔ used i = true ∨ (s.fds i).cb ≠ none
  fresh : ∀ i, (s.fds i).cb = some .bytes → used i = false

/-- What handling of descriptor `i` keeps: other registered descriptors and their lines. -/
structure Keep (i : Nat) (s t : St) : Prop where
  cb : ∀ j, j ≠ i → (s.fds j).cb ≠ none → (t.fds j).cb = (s.fds j).cb
  part : ∀ j, j ≠ i → (t.fds j).part = (s.fds j).part
  calls : t.calls = s.calls

theorem Keep.refl (i : Nat) (s : St) : Keep i s s := ⟨fun _ _ _ => rfl, fun _ _ => rfl, rfl⟩

theorem Keep.trans {i : Nat} {s t u : St} (h : Keep i s t) (g : Keep i t u) : Keep i s u where
  cb := fun j hj hc => by
    have := h.cb j hj hc
    rw [g.cb j hj (by rw [this]; exact hc), this]
  part := fun j hj => by rw [g.part j hj, h.part j hj]
  calls := by rw [g.calls, h.calls]

variable {used : Nat → Bool} {L : Nat}

theorem down_spec (r : Nat → Bool) : ∀ (n i : Nat), i ≤ n → r i = true → ∃ m, down r n = some m ∧ r m = true ∧ i ≤ m ∧
    ∀ j, j ≤ n → r j = true → j ≤ m := by
  intro n
  induction n with
  | zero =>
    intro i hi hr
    have : i = 0 := by omega
    subst this
    exact ⟨0, by simp [down, hr], hr, Nat.le_refl _, fun j hj _ => hj⟩
  | succ n ih =>
    intro i hi hr
    by_cases h : r (n + 1) = true
    · exact ⟨n + 1, by simp [down, h], h, hi, fun j hj _ => hj⟩
    · have hin : i ≠ n + 1 := fun e => h (e ▸ hr)
      obtain ⟨m, h1, h2, h3, h4⟩ := ih i (by omega) hr
      refine ⟨m, by simp [down, h, h1], h2, h3, fun j hj hrj => ?_⟩
      have hjn : j ≠ n + 1 := fun e => h (e ▸ hrj)
      exact h4 j (by omega) hrj

/-- New connection with a descriptor which is not open; `lid` may be set afterwards. -/
theorem open_ok {s : St} (h : Inv used L s) (f : Nat) (hf : s.isOpen f = false) (p : Nat → Option Nat) (l : Option Nat)
    (hp : ∀ k g, p k = some g → (g ≠ f ∧ s.peerFd k = some g) ∨ (g = f ∧ l = some k)) (i : Nat) :
    Out (fun t => Inv used L { t with fds := upd t.fds f { t.fds f with lid := l } } ∧ Keep i s t ∧ t.log = s.log ∧
        (t.fds f).part = none ∧ (∀ j, j ≠ f → t.fds j = s.fds j) ∧ t.peerFd = p) (fun e => e = .tooMany ∧ maxFds ≤ f)
      (addRfd { s with isOpen := upd s.isOpen f true, peerFd := p } f .bytes) := by
  have hc : (s.fds f).cb = none := by
    cases hc : (s.fds f).cb with
    | none => rfl
    | some c => exact absurd (h.reg f (by rw [hc]; simp)).2.2.1 (by rw [hf]; simp)
  have hu : used f = false := by
    cases hu : used f with
    | false => rfl
    | true => exact absurd ((h.opens f).2 (Or.inl hu)) (by rw [hf]; simp)
  have hL : f ≠ L := by
    intro e
    have := (h.listen f).2 e
    rw [hc] at this
    cases this
  unfold addRfd
  by_cases hm : maxFds ≤ f
  · rw [if_pos hm]; exact ⟨rfl, hm⟩
  rw [if_neg hm, if_neg (by simp [hc])]
  refine ⟨⟨?_, ?_, ?_, ?_, ?_, ?_, ?_, ?_⟩, ⟨?_, ?_, rfl⟩, rfl, by simp [upd], fun j hj => upd_other _ _ hj, rfl⟩
  · intro j
    by_cases hj : j = f
    · subst hj; simp [upd]
    · simp [upd, hj, h.rset j]
  · intro j
    by_cases hj : j = f
    · subst hj
      simp only [upd_same]
      intro _
      refine ⟨?_, by omega, by simp, by simp⟩
      split <;> omega
    · simp only [upd_other _ _ hj]
      intro hcj
      obtain ⟨h1, h2⟩ := h.reg j hcj
      refine ⟨?_, h2⟩
      split <;> omega
  · intro j
    by_cases hj : j = f
    · subst hj; simp [upd]
    · simp only [upd_other _ _ hj]; exact h.noreg j
  · intro j
    by_cases hj : j = f
    · subst hj; simp [upd, hL]
    · simp only [upd_other _ _ hj]; exact h.listen j
  · simp only
    by_cases hlt : s.maxfds < f
    · rw [if_pos hlt]; simp [upd]
    · rw [if_neg hlt]
      have : s.maxfds ≠ f := fun e => h.top (e ▸ hc)
      simp only [upd_other _ _ this]
      exact h.top
  · intro k g hk
    rcases hp k g hk with ⟨h1, h2⟩ | ⟨h1, h2⟩
    · simp only [upd_other _ _ h1]; exact h.peer k g h2
    · subst h1; simp [upd, h2]
  · intro j
    by_cases hj : j = f
    · subst hj; simp [upd]
    · simp only [upd_other _ _ hj]; exact h.opens j
  · intro j
    by_cases hj : j = f
    · subst hj; simp [hu]
    · simp only [upd_other _ _ hj]; exact h.fresh j
  · intro j _ hcj
    have : j ≠ f := fun e => hcj (e ▸ hc)
    simp only [upd_other _ _ this]
  · intro j _
    by_cases hj : j = f
    · subst hj; simp [upd, (h.noreg _ hc).2]
    · simp only [upd_other _ _ hj]

/-- Closing a connection which is registered: `p` is the table of peers afterwards. -/
theorem close_ok {s : St} (h : Inv used L s) (i : Nat) (hc : (s.fds i).cb = some .bytes) (p : Nat → Option Nat)
    (hp : ∀ k g, p k = some g → g ≠ i ∧ s.peerFd k = some g) (q : Nat → Option Nat) :
    ∃ t, closeFd { s with peerFd := q } i = .ok t ∧ Inv used L { t with peerFd := p } ∧ Keep i s t ∧ t.log = s.log ∧
      (t.fds i).part = none ∧ (t.fds i).lid = (s.fds i).lid ∧ (∀ j, j ≠ i → t.fds j = s.fds j) ∧ t.peerFd = q ∧
      (t.fds i).cb = none := by
  obtain ⟨r1, r2, r3, r4⟩ := h.reg i (by rw [hc]; simp)
  have hL : L ≠ i := fun e => by
    have := (h.listen L).2 rfl
    rw [e, hc] at this
    cases this
  have hLc : (s.fds L).cb ≠ none := by rw [(h.listen L).2 rfl]; simp
  have hLr : upd s.rset i false L = true := by
    rw [upd_other _ _ hL, h.rset L, (h.listen L).2 rfl]; rfl
  -- the new maximum
  have hm : ∃ m, (if i = s.maxfds then down (upd s.rset i false) s.maxfds else some s.maxfds) = some m ∧
      (upd s.rset i false m = true) ∧ ∀ j, upd s.rset i false j = true → j ≤ m := by
    have hle : ∀ j, upd s.rset i false j = true → j ≤ s.maxfds := by
      intro j hj
      by_cases e : j = i
      · subst e; simp [upd] at hj
      · rw [upd_other _ _ e, h.rset j] at hj
        exact (h.reg j (by intro e'; rw [e'] at hj; cases hj)).1
    by_cases e : i = s.maxfds
    · rw [if_pos e]
      obtain ⟨m, h1, h2, _, h4⟩ := down_spec (upd s.rset i false) s.maxfds L (hle L hLr) hLr
      exact ⟨m, h1, h2, fun j hj => h4 j (hle j hj) hj⟩
    · rw [if_neg e]
      refine ⟨_, rfl, ?_, hle⟩
      rw [upd_other _ _ (fun e' => e e'.symm), h.rset]
      have := h.top
      cases hx : (s.fds s.maxfds).cb with
      | none => exact absurd hx this
      | some c => rfl
  obtain ⟨m, hm1, hm2, hm3⟩ := hm
  unfold closeFd rmRfd
  rw [if_neg (by omega), if_neg (by simp [hc])]
  simp only [hm1]
  refine ⟨_, rfl, ⟨?_, ?_, ?_, ?_, ?_, ?_, ?_, ?_⟩, ⟨?_, ?_, rfl⟩, rfl, by simp [upd], by simp [upd], fun j hj => upd_other _ _ hj, rfl, by simp [upd]⟩
  · intro j
    by_cases hj : j = i
    · subst hj; simp [upd]
    · simp [upd, hj, h.rset j]
  · intro j
    by_cases hj : j = i
    · subst hj; simp [upd]
    · simp only [upd_other _ _ hj]
      intro hcj
      refine ⟨hm3 j ?_, (h.reg j hcj).2⟩
      rw [upd_other _ _ hj, h.rset j]
      cases hx : (s.fds j).cb with
      | none => exact absurd hx hcj
      | some c => rfl
  · intro j
    by_cases hj : j = i
    · subst hj; simp [upd]
    · simp only [upd_other _ _ hj]; exact h.noreg j
  · intro j
    by_cases hj : j = i
    · subst hj; simp [upd, Ne.symm hL]
    · simp only [upd_other _ _ hj]; exact h.listen j
  · by_cases hj : m = i
    · subst hj; simp [upd] at hm2
    · simp only [upd_other _ _ hj]
      rw [upd_other _ _ hj, h.rset m] at hm2
      intro e; rw [e] at hm2; cases hm2
  · intro k g hk
    obtain ⟨h1, h2⟩ := hp k g hk
    simp only [upd_other _ _ h1]; exact h.peer k g h2
  · intro j
    by_cases hj : j = i
    · subst hj; simp [upd, h.fresh j hc]
    · simp only [upd_other _ _ hj]; exact h.opens j
  · intro j
    by_cases hj : j = i
    · subst hj; simp [upd]
    · simp only [upd_other _ _ hj]; exact h.fresh j
  · intro j hj _
    simp only [upd_other _ _ hj]
  · intro j hj
    simp only [upd_other _ _ hj]

/-- `ensure_conn`, with anything about the LIDs of other descriptors. -/
theorem ensure_ok {s : St} (h : Inv used L s) (k f i : Nat) :
    Out (fun t => Inv used L t ∧ Keep i s t ∧ t.log = s.log ∧
        (t = s ∨ s.isOpen f = false ∧ s.peerFd k = none ∧ t.peerFd = upd s.peerFd k (some f) ∧ (t.fds f).lid = some k ∧
          ∀ j, j ≠ f → t.fds j = s.fds j))
      (fun e => e = .impossible ∨ (e = .tooMany ∧ maxFds ≤ f)) (ensureConn s k f) := by
  unfold ensureConn
  cases hk : s.peerFd k with
  | some g => exact ⟨h, Keep.refl _ _, rfl, Or.inl rfl⟩
  | none =>
    simp only
    cases ho : s.isOpen f with
    | true => exact Or.inl rfl
    | false =>
      rw [if_neg (by simp)]
      have := open_ok h f ho (upd s.peerFd k (some f)) (some k) (by
        intro k' g hg
        by_cases e : k' = k
        · subst e
          rw [upd_same] at hg
          injection hg with hg
          exact Or.inr ⟨hg.symm, rfl⟩
        · rw [upd_other _ _ e] at hg
          refine Or.inl ⟨?_, hg⟩
          intro e'
          subst e'
          have := (h.reg g (by rw [(h.peer k' g hg).1]; simp)).2.2.1
          rw [ho] at this
          cases this) i
      cases ha : addRfd { s with isOpen := upd s.isOpen f true, peerFd := upd s.peerFd k (some f) } f .bytes with
      | error e =>
        rw [ha] at this
        exact Or.inr this
      | ok t =>
        rw [ha] at this
        obtain ⟨t1, t2, t3, t4, t5, t6⟩ := this
        refine ⟨t1, t2.trans ⟨?_, ?_, rfl⟩, t3, Or.inr ⟨by simp, by simp, t6, by simp [upd], fun j hj => ?_⟩⟩
        · intro j _ _
          by_cases hj : j = f
          · subst hj; simp [upd]
          · simp only [upd_other _ _ hj]
        · intro j _
          by_cases hj : j = f
          · subst hj; simp [upd]
          · simp only [upd_other _ _ hj]
        · simp only [upd_other _ _ hj]; exact t5 j hj

theorem sendAll_ok {s : St} (h : Inv used L s) (i : Nat) (l : List (Nat × Nat)) :
    Out (fun t => Inv used L t ∧ Keep i s t ∧ t.log = s.log) Ext (sendAll s l) := by
  induction l generalizing s with
  | nil => exact ⟨h, Keep.refl _ _, rfl⟩
  | cons p l ih =>
    obtain ⟨k, f⟩ := p
    refine Out.next (P := fun t => Inv used L t ∧ Keep i s t ∧ t.log = s.log) ?_ ?_
    · have := ensure_ok h k f i
      cases hx : ensureConn s k f with
      | ok t => rw [hx] at this; exact ⟨this.1, this.2.1, this.2.2.1⟩
      | error e =>
        rw [hx] at this
        rcases this with e1 | ⟨e1, _⟩ <;> (rw [e1]; exact trivial)
    · intro t ⟨t1, t2, t3⟩
      exact (ih t1).mono fun u ⟨u1, u2, u3⟩ => ⟨u1, t2.trans u2, by rw [u3, t3]⟩

/-- A LID is set for a connection without one. -/
theorem setLid_ok {s : St} (h : Inv used L s) (i k : Nat) (hc : (s.fds i).cb = some .bytes) (hl : (s.fds i).lid = none) (m : Nat) :
    Inv used L { s with peerFd := upd s.peerFd k (some i), fds := upd s.fds i { s.fds i with lid := some k }, maxid := m } ∧
    Keep i s { s with peerFd := upd s.peerFd k (some i), fds := upd s.fds i { s.fds i with lid := some k }, maxid := m } := by
  refine ⟨⟨?_, ?_, ?_, ?_, ?_, ?_, ?_, ?_⟩, ⟨?_, ?_, rfl⟩⟩
  · intro j
    by_cases hj : j = i
    · subst hj; simp [upd, h.rset j]
    · simp [upd, hj, h.rset j]
  · intro j
    by_cases hj : j = i
    · subst hj; simp only [upd_same]; exact h.reg j
    · simp only [upd_other _ _ hj]; exact h.reg j
  · intro j
    by_cases hj : j = i
    · subst hj; simp only [upd_same]; exact h.noreg j
    · simp only [upd_other _ _ hj]; exact h.noreg j
  · intro j
    by_cases hj : j = i
    · subst hj; simp only [upd_same]; exact h.listen j
    · simp only [upd_other _ _ hj]; exact h.listen j
  · by_cases hj : s.maxfds = i
    · subst hj; simp only [upd_same]; exact h.top
    · simp only [upd_other _ _ hj]; exact h.top
  · intro k' g hg
    by_cases e : k' = k
    · subst e
      simp only [upd_same] at hg
      injection hg with hg
      subst hg
      simp [upd, hc]
    · simp only [upd_other _ _ e] at hg
      have := h.peer k' g hg
      have hgi : g ≠ i := fun e' => by rw [e', hl] at this; exact absurd this.2 (by simp)
      simp only [upd_other _ _ hgi]; exact this
  · intro j
    by_cases hj : j = i
    · subst hj; simp only [upd_same]; exact h.opens j
    · simp only [upd_other _ _ hj]; exact h.opens j
  · intro j
    by_cases hj : j = i
    · subst hj; simp only [upd_same]; exact h.fresh j
    · simp only [upd_other _ _ hj]; exact h.fresh j
  · intro j hj _; simp only [upd_other _ _ hj]
  · intro j hj; simp only [upd_other _ _ hj]

/-- Other fields of a registered descriptor are set. -/
theorem setFd_ok {s : St} (h : Inv used L s) (i : Nat) (hc : (s.fds i).cb ≠ none) (d : Fd) (h1 : d.cb = (s.fds i).cb)
    (h2 : d.lid = (s.fds i).lid) (h3 : d.buf = (s.fds i).buf) :
    Inv used L { s with fds := upd s.fds i d } ∧ Keep i s { s with fds := upd s.fds i d } := by
  refine ⟨⟨?_, ?_, ?_, ?_, ?_, ?_, ?_, ?_⟩, ⟨?_, ?_, rfl⟩⟩
  · intro j
    by_cases hj : j = i
    · subst hj; simp [upd, h1, h.rset j]
    · simp [upd, hj, h.rset j]
  · intro j
    by_cases hj : j = i
    · subst hj; simp only [upd_same, h1, h3]; exact h.reg j
    · simp only [upd_other _ _ hj]; exact h.reg j
  · intro j
    by_cases hj : j = i
    · subst hj; simp only [upd_same, h1]; exact fun e => absurd e hc
    · simp only [upd_other _ _ hj]; exact h.noreg j
  · intro j
    by_cases hj : j = i
    · subst hj; simp only [upd_same, h1]; exact h.listen j
    · simp only [upd_other _ _ hj]; exact h.listen j
  · by_cases hj : s.maxfds = i
    · subst hj; simp only [upd_same, h1]; exact h.top
    · simp only [upd_other _ _ hj]; exact h.top
  · intro k g hg
    have := h.peer k g hg
    by_cases hj : g = i
    · subst hj; simp only [upd_same, h1, h2]; exact this
    · simp only [upd_other _ _ hj]; exact this
  · intro j
    by_cases hj : j = i
    · subst hj; simp only [upd_same, h1]; exact h.opens j
    · simp only [upd_other _ _ hj]; exact h.opens j
  · intro j
    by_cases hj : j = i
    · subst hj; simp only [upd_same, h1]; exact h.fresh j
    · simp only [upd_other _ _ hj]; exact h.fresh j
  · intro j hj _; simp only [upd_other _ _ hj]
  · intro j hj; simp only [upd_other _ _ hj]

theorem queue_ok {s : St} (h : Inv used L s) (i : Nat) (hc : (s.fds i).cb ≠ none) :
    Out (fun t => Inv used L t ∧ Keep i s t ∧ t.log = s.log) Ext (queueCmd s i) := by
  unfold queueCmd
  by_cases hq : (s.fds i).cmd = true
  · rw [if_pos hq]; exact trivial
  · rw [if_neg hq]
    have := setFd_ok h i hc { s.fds i with cmd := true } rfl rfl rfl
    exact ⟨this.1, this.2, rfl⟩

/-- The table without the LID of a descriptor. -/
theorem peer_without {s : St} (h : Inv used L s) {i k : Nat} (hl : (s.fds i).lid = some k) :
    ∀ k' g, upd s.peerFd k none k' = some g → g ≠ i ∧ s.peerFd k' = some g := by
  intro k' g hg
  by_cases e : k' = k
  · subst e; rw [upd_same] at hg; cases hg
  · rw [upd_other _ _ e] at hg
    refine ⟨fun e' => ?_, hg⟩
    have := (h.peer k' g hg).2
    rw [e', hl] at this
    injection this with this
    exact e this.symm

theorem peer_nolid {s : St} (h : Inv used L s) {i : Nat} (hl : (s.fds i).lid = none) :
    ∀ k' g, s.peerFd k' = some g → g ≠ i ∧ s.peerFd k' = some g := by
  intro k' g hg
  refine ⟨fun e' => ?_, hg⟩
  have := (h.peer k' g hg).2
  rw [e', hl] at this
  cases this

theorem quit_ok {s : St} (h : Inv used L s) (i : Nat) (hc : (s.fds i).cb = some .bytes) :
    ∃ t, gotQuit s i = .ok t ∧ Inv used L t ∧ Keep i s t ∧ t.log = s.log ∧ (∀ j, j ≠ i → t.fds j = s.fds j) ∧
      (t.fds i).cb = none ∧ (t.peerFd = match (s.fds i).lid with | none => s.peerFd | some k => upd s.peerFd k none) := by
  cases hl : (s.fds i).lid with
  | none =>
    obtain ⟨t, t1, t2, t3, t4, t5, t6, t7, t8, t9⟩ := close_ok h i hc s.peerFd (peer_nolid h hl) s.peerFd
    refine ⟨t, ?_, ?_, t3, t4, t7, t9, t8⟩
    · unfold gotQuit
      rw [show closeFd s i = .ok t from t1]
      simp only [next, hl]
    · rw [← t8] at t2; exact t2
  | some k =>
    obtain ⟨t, t1, t2, t3, t4, t5, t6, t7, t8, t9⟩ := close_ok h i hc (upd s.peerFd k none) (peer_without h hl) s.peerFd
    refine ⟨{ t with peerFd := upd t.peerFd k none }, ?_, ?_, ⟨t3.cb, t3.part, t3.calls⟩, t4, t7, t9, ?_⟩
    · unfold gotQuit
      rw [show closeFd s i = .ok t from t1]
      simp only [next, hl]
    · rw [t8]; exact t2
    · simp only [t8]

/-- The log does not matter. -/
theorem Inv.log {s : St} (h : Inv used L s) (l : List (Nat × Cmd)) : Inv used L { s with log := l } :=
  ⟨h.rset, h.reg, h.noreg, h.listen, h.top, h.peer, h.opens, h.fresh⟩

theorem Inv.calls {s : St} (h : Inv used L s) (l : List Nat) : Inv used L { s with calls := l } :=
  ⟨h.rset, h.reg, h.noreg, h.listen, h.top, h.peer, h.opens, h.fresh⟩

theorem cmd_ok {s : St} (h : Inv used L s) (i : Nat) (hc : (s.fds i).cb = some .bytes) (c : Cmd) :
    Out (fun t => Inv used L t ∧ Keep i s t ∧ t.log = s.log ++ [(i, c)]) Ext (gotCmd s i c) := by
  have h' := h.log (s.log ++ [(i, c)])
  have hk : Keep i s { s with log := s.log ++ [(i, c)] } := ⟨fun _ _ _ => rfl, fun _ _ => rfl, rfl⟩
  have hc' : (({ s with log := s.log ++ [(i, c)] } : St).fds i).cb = some .bytes := hc
  have hn : (s.fds i).cb ≠ none := by rw [hc]; simp
  unfold gotCmd
  cases c with
  | quit =>
    obtain ⟨t, t1, t2, t3, t4, _⟩ := quit_ok h' i hc'
    simp only [t1]
    exact ⟨t2, hk.trans t3, t4⟩
  | myid k =>
    simp only [gotMyid]
    cases hl : (s.fds i).lid with
    | some k' => exact ⟨h', hk, rfl⟩
    | none =>
      simp only
      split
      · exact ⟨h', hk, rfl⟩
      · split
        · exact trivial
        · have := setLid_ok h' i k hc' hl s.maxid
          exact ⟨this.1, hk.trans this.2, rfl⟩
  | register =>
    simp only [gotRegister]
    split
    · exact ⟨h', hk, rfl⟩
    · cases hl : (s.fds i).lid with
      | some k' => exact ⟨h', hk, rfl⟩
      | none =>
        simp only
        split
        · split
          · exact trivial
          · have := setLid_ok h' i (s.maxid + 1) hc' hl (s.maxid + 1)
            exact ⟨this.1, hk.trans this.2, rfl⟩
        · exact (queue_ok h' i hn).mono fun t ⟨t1, t2, t3⟩ => ⟨t1, hk.trans t2, t3⟩
  | cutoff =>
    simp only [gotCutoff]
    split
    · exact ⟨h', hk, rfl⟩
    · exact (queue_ok h' i hn).mono fun t ⟨t1, t2, t3⟩ => ⟨t1, hk.trans t2, t3⟩
  | other m l =>
    simp only
    cases hl : (s.fds i).lid with
    | none => exact ⟨h', hk, rfl⟩
    | some k => exact (sendAll_ok h' i l).mono fun t ⟨t1, t2, t3⟩ => ⟨t1, hk.trans t2, t3⟩

theorem buf_cb {s : St} (h : Inv used L s) {i : Nat} (hi : i ≠ L) (hb : (s.fds i).buf = true) : (s.fds i).cb = some .bytes := by
  cases hc : (s.fds i).cb with
  | none => rw [(h.noreg i hc).1] at hb; cases hb
  | some c =>
    cases c with
    | connect => exact absurd ((h.listen i).1 hc) hi
    | bytes => rfl

theorem rbuf_ok {s : St} (h : Inv used L s) {i : Nat} (hi : i ≠ L) (ls : List Cmd) (r : Option Cmd) :
    Out (fun t => Inv used L t ∧ Keep i s t ∧ t.log = s.log ++ ls.map (fun c => (i, c)) ∧ (t.fds i).part = r) Ext
      (processRbuf s i ls r) := by
  induction ls generalizing s with
  | nil =>
    unfold processRbuf
    by_cases hb : (s.fds i).buf = true
    · rw [if_pos hb]
      have := setFd_ok h i (by rw [buf_cb h hi hb]; simp) { s.fds i with part := r } rfl rfl rfl
      exact ⟨this.1, this.2, by simp, by simp [upd]⟩
    · rw [if_neg hb]
      split
      · next e =>
        refine ⟨h, Keep.refl _ _, by simp, ?_⟩
        cases hc : (s.fds i).cb with
        | none => rw [(h.noreg i hc).2, e]
        | some c => exact absurd (h.reg i (by rw [hc]; simp)).2.2.2 hb
      · exact trivial
  | cons c ls ih =>
    unfold processRbuf
    by_cases hb : (s.fds i).buf = true
    · rw [if_pos hb]
      refine Out.next (cmd_ok h i (buf_cb h hi hb) c) ?_
      intro t ⟨t1, t2, t3⟩
      exact (ih t1).mono fun u ⟨u1, u2, u3, u4⟩ => ⟨u1, t2.trans u2, by rw [u3, t3]; simp, u4⟩
    · rw [if_neg hb]; exact trivial

theorem close_ext (s : St) (i : Nat) (hc : (s.fds i).cb = none) (P : St → Prop) : Out P Ext (closeFd s i) := by
  unfold closeFd rmRfd
  by_cases hm : maxFds ≤ i
  · rw [if_pos hm]; exact trivial
  · rw [if_neg hm, if_pos hc]; exact trivial

theorem end_ok {s : St} (h : Inv used L s) {i : Nat} (hi : i ≠ L) :
    Out (fun t => Inv used L t ∧ Keep i s t ∧ t.log = s.log ++ (s.fds i).part.toList.map (fun c => (i, c)) ∧ (t.fds i).part = none) Ext
      (gotEnd s i) := by
  unfold gotEnd
  refine Out.next (P := fun t => Inv used L t ∧ Keep i s t ∧ t.log = s.log ++ (s.fds i).part.toList.map (fun c => (i, c))) ?_ ?_
  · cases hp : (s.fds i).part with
    | none => exact ⟨h, Keep.refl _ _, by simp⟩
    | some c => exact (rbuf_ok h hi [c] none).mono fun t ⟨t1, t2, t3, _⟩ => ⟨t1, t2, by rw [t3]; rfl⟩
  · intro t ⟨t1, t2, t3⟩
    cases hl : (t.fds i).lid with
    | none =>
      simp only
      cases hc : (t.fds i).cb with
      | none => exact close_ext t i hc _
      | some c =>
        have hc' : (t.fds i).cb = some .bytes := buf_cb t1 hi (t1.reg i (by rw [hc]; simp)).2.2.2
        obtain ⟨u, u1, u2, u3, u4, u5, u6, u7, u8, _⟩ := close_ok t1 i hc' t.peerFd (peer_nolid t1 hl) t.peerFd
        rw [show closeFd t i = .ok u from u1]
        refine ⟨?_, t2.trans u3, by rw [u4, t3], u5⟩
        rw [← u8] at u2; exact u2
    | some k =>
      simp only
      by_cases hk : t.peerFd k = some i
      · rw [if_pos hk]
        obtain ⟨u, u1, u2, u3, u4, u5, u6, u7, u8, _⟩ :=
          close_ok t1 i (t1.peer k i hk).1 (upd t.peerFd k none) (peer_without t1 hl) (upd t.peerFd k none)
        rw [u1]
        refine ⟨?_, t2.trans u3, by rw [u4, t3], u5⟩
        rw [← u8] at u2; exact u2
      · rw [if_neg hk]; exact trivial

/-- Lines which are not complete. -/
def parts (s : St) : Nat → Option Cmd := fun i => (s.fds i).part

theorem parts_upd {i : Nat} {s t : St} (h : Keep i s t) {r : Option Cmd} (hr : (t.fds i).part = r) : parts t = upd (parts s) i r := by
  funext j
  by_cases hj : j = i
  · subst hj; rw [upd_same]; exact hr
  · rw [upd_other _ _ hj]; exact h.part j hj

theorem callback_ok {s : St} (h : Inv used L s) (i : Nat) (hc : (s.fds i).cb ≠ none) (x : In) :
    Out (fun t => Inv used L t ∧ (∀ j, j ≠ i → (s.fds j).cb ≠ none → (t.fds j).cb = (s.fds j).cb) ∧ t.calls = s.calls ++ [i] ∧
        t.log = s.log ++ (said (parts s) [(i, x)]).1 ∧ parts t = (said (parts s) [(i, x)]).2) Ext (callback s i x) := by
  have h' := h.calls (s.calls ++ [i])
  unfold callback
  cases hb : (s.fds i).cb with
  | none => exact absurd hb hc
  | some c =>
    cases c with
    | connect =>
      cases x with
      | conn f =>
        simp only [hb, gotConnect]
        cases ho : s.isOpen f with
        | true => exact trivial
        | false =>
          rw [if_neg (by simp)]
          have hp : ∀ k g, s.peerFd k = some g → (g ≠ f ∧ ({ s with calls := s.calls ++ [i] } : St).peerFd k = some g) ∨ (g = f ∧ (none : Option Nat) = some k) := by
            intro k g hg
            refine Or.inl ⟨fun e => ?_, hg⟩
            have := (h.reg g (by rw [(h.peer k g hg).1]; simp)).2.2.1
            rw [e, ho] at this
            cases this
          have := open_ok h' f ho s.peerFd none hp i
          cases ha : addRfd { ({ s with calls := s.calls ++ [i] } : St) with isOpen := upd s.isOpen f true, peerFd := s.peerFd } f .bytes with
          | error e =>
            rw [ha] at this
            rw [this.1]
            exact trivial
          | ok t =>
            rw [ha] at this
            obtain ⟨t1, t2, t3, t4, t5, t6⟩ := this
            have hlid : (t.fds f).lid = none := by
              unfold addRfd at ha
              split at ha
              · cases ha
              · split at ha
                · cases ha
                · injection ha with ha
                  rw [← ha]
                  simp [upd]
            have he : ({ t with fds := upd t.fds f { t.fds f with lid := none } } : St) = t := by
              have : upd t.fds f { t.fds f with lid := none } = t.fds := by
                funext j
                by_cases hj : j = f
                · subst hj
                  rw [upd_same, ← hlid]
                · rw [upd_other _ _ hj]
              rw [this]
            rw [he] at t1
            have hcf : (s.fds f).cb = none := by
              cases hcf : (s.fds f).cb with
              | none => rfl
              | some c =>
                have := (h.reg f (by rw [hcf]; simp)).2.2.1
                rw [ho] at this
                cases this
            refine ⟨t1, t2.cb, t2.calls, by rw [t3]; simp [said], ?_⟩
            funext j
            by_cases hj : j = f
            · subst hj
              show (t.fds j).part = (s.fds j).part
              rw [t4, (h.noreg j hcf).2]
            · show (t.fds j).part = (s.fds j).part
              rw [t5 j hj]
      | lines ls r => simp only [hb]; exact trivial
      | eof => simp only [hb]; exact trivial
      | err => simp only [hb]; exact trivial
    | bytes =>
      have hi : i ≠ L := fun e => by
        have := (h.listen i).2 e
        rw [hb] at this
        cases this
      cases x with
      | conn f => simp only [hb]; exact trivial
      | err => simp only [hb]; exact ⟨h', fun _ _ _ => rfl, rfl, by simp [said], rfl⟩
      | lines ls r =>
        simp only [hb]
        refine (rbuf_ok h' hi ls r).mono ?_
        intro t ⟨t1, t2, t3, t4⟩
        exact ⟨t1, t2.cb, t2.calls, by rw [t3]; simp [said], by rw [parts_upd t2 t4]; rfl⟩
      | eof =>
        simp only [hb]
        refine (end_ok h' hi).mono ?_
        intro t ⟨t1, t2, t3, t4⟩
        exact ⟨t1, t2.cb, t2.calls, by rw [t3]; simp [said, parts], by rw [parts_upd t2 t4]; rfl⟩

theorem said_cons (p : Nat → Option Cmd) (a : Nat × In) (l : List (Nat × In)) :
    said p (a :: l) = ((said p [a]).1 ++ (said (said p [a]).2 l).1, (said (said p [a]).2 l).2) := by
  obtain ⟨i, x⟩ := a
  cases x <;> simp [said]

theorem loop_ok {s : St} (h : Inv used L s) (l : List (Nat × In)) (hr : ∀ p ∈ l, (s.fds p.1).cb ≠ none)
    (hs : l.Pairwise fun a b => a.1 < b.1) :
    Out (fun t => Inv used L t ∧ t.calls = s.calls ++ l.map Prod.fst ∧ t.log = s.log ++ (said (parts s) l).1 ∧
        parts t = (said (parts s) l).2) Ext (loop s l) := by
  induction l generalizing s with
  | nil => exact ⟨h, by simp, by simp [said], rfl⟩
  | cons a l ih =>
    obtain ⟨i, x⟩ := a
    have hci := hr (i, x) List.mem_cons_self
    rw [List.pairwise_cons] at hs
    unfold loop
    rw [if_neg (by have := (h.reg i hci).1; omega)]
    refine Out.next (callback_ok h i hci x) ?_
    intro t ⟨t1, t2, t3, t4, t5⟩
    refine (ih t1 ?_ hs.2).mono ?_
    · intro p hp
      have hpc := hr p (List.mem_cons_of_mem _ hp)
      rw [t2 p.1 (by have := hs.1 p hp; simp only at this; omega) hpc]
      exact hpc
    · intro u ⟨u1, u2, u3, u4⟩
      refine ⟨u1, by rw [u2, t3]; simp, ?_, ?_⟩
      · rw [u3, t4, t5, said_cons (parts s) (i, x) l, List.append_assoc]
      · rw [u4, t5, said_cons (parts s) (i, x) l]

theorem selected_spec {s : St} (h : Inv used L s) {l : List (Nat × In)} (hl : selected s l = true) :
    (∀ p ∈ l, (s.fds p.1).cb ≠ none) ∧ l.Pairwise fun a b => a.1 < b.1 := by
  unfold selected at hl
  rw [Bool.and_eq_true, List.all_eq_true, decide_eq_true_eq] at hl
  refine ⟨fun p hp e => ?_, hl.2⟩
  have := hl.1 p hp
  rw [h.rset, e] at this
  cases this

theorem step_ok {s : St} (h : Inv used L s) (e : Ev) :
    Out (fun t => Inv used L t ∧ t.calls = s.calls ++ readyAll [e] ∧ t.log = s.log ++ saidAll (parts s) [e] ∧
        ∀ r, saidAll (parts s) (e :: r) = saidAll (parts s) [e] ++ saidAll (parts t) r) Ext (step s e) := by
  cases e with
  | round l =>
    simp only [step]
    split
    · next hl =>
      obtain ⟨h1, h2⟩ := selected_spec h hl
      refine (loop_ok h l h1 h2).mono ?_
      intro t ⟨t1, t2, t3, t4⟩
      exact ⟨t1, by rw [t2]; simp [readyAll], by rw [t3]; simp [saidAll], fun r => by simp [saidAll, t4]⟩
    · exact trivial
  | send k f =>
    simp only [step]
    have := ensure_ok h k f f
    have h2 := ensure_ok h k f (f + 1)
    cases hx : ensureConn s k f with
    | error e =>
      rw [hx] at this
      rcases this with e1 | ⟨e1, _⟩ <;> (rw [e1]; exact trivial)
    | ok t =>
      rw [hx] at this h2
      obtain ⟨t1, t2, t3, _⟩ := this
      refine ⟨t1, by rw [t2.calls]; simp [readyAll], by rw [t3]; simp [saidAll], fun r => ?_⟩
      have : parts t = parts s := by
        funext j
        by_cases hj : j = f
        · exact h2.2.1.part j (by omega)
        · exact t2.part j hj
      simp [saidAll, this]
  | mode a b =>
    exact ⟨⟨h.rset, h.reg, h.noreg, h.listen, h.top, h.peer, h.opens, h.fresh⟩, by simp [readyAll], by simp [saidAll],
      fun r => by simp [saidAll]; rfl⟩

theorem readyAll_cons (e : Ev) (r : List Ev) : readyAll (e :: r) = readyAll [e] ++ readyAll r := by
  cases e <;> simp [readyAll]

theorem run_ok {s : St} (h : Inv used L s) (evs : List Ev) :
    Out (fun t => Inv used L t ∧ t.calls = s.calls ++ readyAll evs ∧ t.log = s.log ++ saidAll (parts s) evs) Ext (run s evs) := by
  induction evs generalizing s with
  | nil => exact ⟨h, by simp [readyAll], by simp [saidAll]⟩
  | cons e r ih =>
    refine Out.next (step_ok h e) ?_
    intro t ⟨t1, t2, t3, t4⟩
    exact (ih t1).mono fun u ⟨u1, u2, u3⟩ =>
      ⟨u1, by rw [u2, t2, readyAll_cons e r, List.append_assoc], by rw [u3, t3, t4 r, List.append_assoc]⟩

/-- The state with the listening socket. -/
def ready (used : Nat → Bool) (mylid maxid L : Nat) : St where
  fds := upd (fun _ => ⟨none, none, false, false, none⟩) L ⟨some .connect, none, false, true, none⟩
  rset := upd (fun _ => false) L true
  maxfds := if 0 < L then L else 0
  peerFd := fun _ => none
  maxid := maxid
  mylid := mylid
  starting := true
  inst := false
  isOpen := used
  calls := []
  log := []

theorem start_eq (mylid maxid : Nat) (hL : L < maxFds) (evs : List Ev) :
    start used mylid maxid L evs = run (ready used mylid maxid L) evs := by
  unfold start addRfd
  rw [if_neg (by omega), if_neg (by simp [blank])]
  rfl

theorem ready_inv (mylid maxid : Nat) (hL : L < maxFds) (hu : used L = true) : Inv used L (ready used mylid maxid L) := by
  have hm : (if 0 < L then L else 0) = L := by split <;> omega
  refine ⟨?_, ?_, ?_, ?_, ?_, ?_, ?_, ?_⟩
  · intro j
    by_cases hj : j = L
    · subst hj; simp [ready, upd]
    · simp [ready, upd, hj]
  · intro j
    by_cases hj : j = L
    · subst hj; simp only [ready, upd_same, hm]; exact fun _ => ⟨Nat.le_refl _, hL, hu, by simp⟩
    · simp [ready, upd, hj]
  · intro j
    by_cases hj : j = L
    · subst hj; simp [ready, upd]
    · simp [ready, upd, hj]
  · intro j
    by_cases hj : j = L
    · subst hj; simp [ready, upd]
    · simp [ready, upd, hj]
  · simp [ready, upd, hm]
  · intro k g hg
    cases hg
  · intro j
    by_cases hj : j = L
    · subst hj; simp [ready, upd, hu]
    · simp [ready, upd, hj]
  · intro j
    by_cases hj : j = L
    · subst hj; simp [ready, upd]
    · simp [ready, upd, hj]

end Laik.Lp
