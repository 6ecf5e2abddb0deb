import Verif.Model.TcpConn

/-! # Invariant of connections of the TCP2 backend: C70 -/

namespace Laik.Co

@[simp] theorem upd_same {A : Type} (f : Bool → A) (b : Bool) (v : A) : upd f b v b = v := by simp [upd]
theorem upd_other {A : Type} (f : Bool → A) {b b' : Bool} (v : A) (h : b' ≠ b) : upd f b v b' = f b' := by simp [upd, h]
@[simp] theorem upd_not {A : Type} (f : Bool → A) (b : Bool) (v : A) : upd f b v (!b) = f (!b) := by
  cases b <;> rfl
@[simp] theorem upd_not' {A : Type} (f : Bool → A) (b : Bool) (v : A) : upd f (!b) v b = f b := by
  cases b <;> rfl
@[simp] theorem upd2_same {A : Type} (f : Nat → Nat → A) (i j : Nat) (v : A) : upd2 f i j v i j = v := by simp [upd2]

/-- Items which are messages only. -/
def Plain (l : List Item) : Prop := ∃ ms : List Nat, l = ms.map .msg

theorem plain_nil : Plain [] := ⟨[], rfl⟩
theorem Plain.snoc {l : List Item} (h : Plain l) (m : Nat) : Plain (l ++ [.msg m]) := by
  obtain ⟨ms, rfl⟩ := h; exact ⟨ms ++ [m], by simp⟩
theorem Plain.tail {l : List Item} {a : Item} (h : Plain (a :: l)) : Plain l := by
  obtain ⟨ms, e⟩ := h
  cases ms with
  | nil => simp at e
  | cons m ms => simp at e; exact ⟨ms, e.2⟩
theorem Plain.not_myid {l : List Item} {k : Nat} (h : Plain (.myid k :: l)) : False := by
  obtain ⟨ms, e⟩ := h
  cases ms <;> simp at e

/-- What holds for each connection. -/
structure CInv (n : Nat) (dead : Nat → Bool) (x : Conn) : Prop where
  ne : x.own false ≠ x.own true
  lt : ∀ b, x.own b < n
  lid : ∀ b, x.lid b = some (x.own (!b)) ∨
    (b = true ∧ x.lid b = none ∧ ∃ r, x.q true = .myid (x.own false) :: r ∧ Plain r)
  known : ∀ b, x.lid b ≠ none → Plain (x.q b)
  acc : x.lid true ≠ none → x.acc = true
  down : ∀ b, dead (x.own b) = true → x.op b = false
  shut : ∀ b, x.op b = false → dead (x.own b) = true ∨ dead (x.own (!b)) = true

theorem CInv.ne' {n dead x} (h : CInv n dead x) (b : Bool) : x.own b ≠ x.own (!b) := by
  cases b
  · exact h.ne
  · exact fun e => h.ne e.symm

/-- Invariant of runs. -/
structure Inv (n : Nat) (s : St) : Prop where
  conn : ∀ {c : Nat} {x : Conn}, s.conns[c]? = some x → CInv n s.dead x
  fdok : ∀ {i j c : Nat} {b : Bool}, s.fd i j = some (c, b) → ∃ x, s.conns[c]? = some x ∧ x.own b = i ∧ x.own (!b) = j ∧
    x.lid b = some j ∧ (s.dead i = false → x.op b = true)
  once : ∀ {c : Nat} {x : Conn}, s.conns[c]? = some x → s.dead (x.own false) = false → s.dead (x.own true) = false →
    (s.fd (x.own false) (x.own true)).isSome
  uniq : ∀ {c c' : Nat} {x y : Conn}, s.conns[c]? = some x → s.conns[c']? = some y → x.own false = y.own false →
    x.own true = y.own true → c = c'

theorem lt_of_get {A : Type} {l : List A} {c : Nat} {x : A} (h : l[c]? = some x) : c < l.length :=
  (List.getElem?_eq_some_iff.1 h).1

theorem get_set {A : Type} {l : List A} {c c' : Nat} {x y z : A} (h : l[c]? = some x)
    (h' : (l.set c y)[c']? = some z) : (c' = c ∧ z = y) ∨ (c' ≠ c ∧ l[c']? = some z) := by
  have hl := lt_of_get h
  rw [List.getElem?_set] at h'
  by_cases e : c = c'
  · subst e; simp [hl] at h'; exact .inl ⟨rfl, h'.symm⟩
  · simp [e] at h'; exact .inr ⟨fun e' => e e'.symm, h'⟩

theorem get_set_same {A : Type} {l : List A} {c : Nat} {x : A} (y : A) (h : l[c]? = some x) :
    (l.set c y)[c]? = some y := by
  have hl := lt_of_get h
  simp [hl]

theorem get_set_ne {A : Type} {l : List A} {c c' : Nat} (y : A) (h : c' ≠ c) :
    (l.set c y)[c']? = l[c']? := by
  have : ¬ c = c' := fun e => h e.symm
  rw [List.getElem?_set, if_neg this]

/-- A connection replaced by one between the same processes, tables not changed. -/
theorem Inv.replace {n : Nat} {s : St} (h : Inv n s) {c : Nat} {x y : Conn} (hx : s.conns[c]? = some x)
    (own : y.own = x.own) (lid : y.lid = x.lid) (op : y.op = x.op) (hy : CInv n s.dead y) (log : List (Nat × Nat × Nat)) :
    Inv n { s with conns := s.conns.set c y, log := log } := by
  refine ⟨?_, ?_, ?_, ?_⟩
  · intro c' z hz
    rcases get_set hx hz with ⟨rfl, rfl⟩ | ⟨_, hz⟩
    · exact hy
    · exact h.conn hz
  · intro i j c' b hf
    obtain ⟨z, hz, h1, h2, h3, h4⟩ := h.fdok hf
    by_cases e : c' = c
    · subst e
      rw [hx] at hz; cases hz
      exact ⟨y, get_set_same y hx, by rw [own]; exact h1, by rw [own]; exact h2, by rw [lid]; exact h3, by rw [op]; exact h4⟩
    · exact ⟨z, by rw [get_set_ne y e]; exact hz, h1, h2, h3, h4⟩
  · intro c' z hz d1 d2
    rcases get_set hx hz with ⟨rfl, rfl⟩ | ⟨_, hz⟩
    · rw [own] at d1 d2 ⊢; exact h.once hx d1 d2
    · exact h.once hz d1 d2
  · intro c1 c2 z1 z2 hz1 hz2 e1 e2
    rcases get_set hx hz1 with ⟨rfl, rfl⟩ | ⟨_, k1⟩ <;> rcases get_set hx hz2 with ⟨rfl, rfl⟩ | ⟨_, k2⟩
    · rfl
    · rw [own] at e1 e2; exact h.uniq hx k2 e1 e2
    · rw [own] at e1 e2; exact h.uniq k1 hx e1 e2
    · exact h.uniq k1 k2 e1 e2

/-! ### Sending -/

theorem CInv.write {n dead x} (h : CInv n dead x) (b : Bool) (hb : x.lid (!b) ≠ none ∨ b = true) (m : Nat) :
    CInv n dead { x with q := upd x.q b (x.q b ++ [.msg m]) } := by
  refine ⟨h.ne, h.lt, ?_, ?_, h.acc, h.down, h.shut⟩
  · intro b'
    rcases h.lid b' with e | ⟨rfl, e, r, er, pr⟩
    · exact .inl e
    · right
      refine ⟨rfl, e, ?_⟩
      by_cases eb : b = true
      · subst eb; exact ⟨r ++ [.msg m], by simp [er], pr.snoc m⟩
      · exact ⟨r, by
          have : ¬ true = b := fun e => eb e.symm
          simp only [upd, if_neg this, er], pr⟩
  · intro b' hk
    by_cases eb : b' = b
    · subst eb; simpa using (h.known b' hk).snoc m
    · simp only [upd_other _ _ eb]; exact h.known b' hk

theorem inv_ensure {n : Nat} {s : St} (h : Inv n s) {i j : Nat} (hi : i < n) (hj : j < n) (hij : i ≠ j)
    (di : s.dead i = false) : Inv n (ensureConn s i j) := by
  unfold ensureConn
  cases hf : s.fd i j with
  | some p => exact h
  | none =>
    by_cases he : s.err i j = true
    · simp [he]; exact h
    by_cases hd : s.dead j = true
    · simp [he, hd]; exact ⟨h.conn, h.fdok, h.once, h.uniq⟩
    simp only []
    rw [if_neg he, if_neg hd]
    have hd' : s.dead j = false := by simpa using hd
    have new : ∀ {c : Nat} {x : Conn}, (s.conns ++ [newConn i j])[c]? = some x →
        s.conns[c]? = some x ∨ (c = s.conns.length ∧ x = newConn i j) := by
      intro c x hc
      rw [List.getElem?_append] at hc
      split at hc
      · exact .inl hc
      · right
        have := lt_of_get hc
        simp at this
        have e : c = s.conns.length := by omega
        subst e; simp at hc; exact ⟨rfl, hc.symm⟩
    have noold : ∀ {c : Nat} {x : Conn}, s.conns[c]? = some x → x.own false = i → x.own true = j → False := by
      intro c x hc e1 e2
      have := h.once hc (by rw [e1]; exact di) (by rw [e2]; exact hd')
      rw [e1, e2, hf] at this; cases this
    refine ⟨?_, ?_, ?_, ?_⟩
    · intro c x hc
      rcases new hc with hc | ⟨_, rfl⟩
      · exact h.conn hc
      · refine ⟨by simpa [newConn] using hij, ?_, ?_, ?_, ?_, ?_, ?_⟩
        · intro b; cases b <;> simp [newConn, hi, hj]
        · intro b; cases b
          · left; simp [newConn]
          · right; exact ⟨rfl, by simp [newConn], [], by simp [newConn], plain_nil⟩
        · intro b; cases b
          · intro _; simp [newConn]; exact plain_nil
          · intro e; simp [newConn] at e
        · intro e; simp [newConn] at e
        · intro b; cases b <;> simp [newConn, di, hd']
        · intro b; cases b <;> simp [newConn]
    · intro a b c e hf'
      simp only [upd2] at hf'
      split at hf'
      · rename_i hab
        obtain ⟨rfl, rfl⟩ := hab
        injection hf' with hf'; injection hf' with e1 e2; subst e1; subst e2
        exact ⟨newConn a b, by simp, by simp [newConn], by simp [newConn], by simp [newConn], by simp [newConn]⟩
      · obtain ⟨x, hx, r⟩ := h.fdok hf'
        exact ⟨x, by rw [List.getElem?_append_left (lt_of_get hx)]; exact hx, r⟩
    · intro c x hc d1 d2
      simp only [upd2]
      split
      · rfl
      · rename_i hne
        rcases new hc with hc | ⟨_, rfl⟩
        · exact h.once hc d1 d2
        · exact absurd ⟨by simp [newConn], by simp [newConn]⟩ hne
    · intro c c' x y hc hc' e1 e2
      rcases new hc with k1 | ⟨e3, e4⟩ <;> rcases new hc' with k2 | ⟨e5, e6⟩
      · exact h.uniq k1 k2 e1 e2
      · rw [e6] at e1 e2; exact (noold k1 (by simpa [newConn] using e1) (by simpa [newConn] using e2)).elim
      · rw [e4] at e1 e2; exact (noold k2 (by simpa [newConn] using e1.symm) (by simpa [newConn] using e2.symm)).elim
      · rw [e3, e5]

theorem inv_write {n : Nat} {s : St} (h : Inv n s) (i j m : Nat) : Inv n (write s i j (.msg m)) := by
  unfold write
  cases hf : s.fd i j with
  | none => exact h
  | some p =>
    obtain ⟨c, b⟩ := p
    obtain ⟨x, hx, h1, h2, h3, h4⟩ := h.fdok hf
    simp only [hx]
    split
    · refine h.replace hx (y := { x with q := upd x.q (!b) (x.q (!b) ++ [.msg m]) }) rfl rfl rfl ((h.conn hx).write (!b) ?_ m) s.log
      left; simp [h3]
    · exact h

theorem inv_send {n : Nat} {s : St} (h : Inv n s) {i j : Nat} (hi : i < n) (hj : j < n) (hij : i ≠ j)
    (di : s.dead i = false) (m : Nat) : Inv n (send s i j m) := by
  unfold send
  have h1 := inv_ensure h hi hj hij di
  simp only []
  split
  · exact h1
  · exact inv_write h1 i j m

/-! ### Other events -/

theorem inv_accept {n : Nat} {s : St} (h : Inv n s) (c : Nat) : Inv n (accept s c) := by
  unfold accept
  cases hx : s.conns[c]? with
  | none => exact h
  | some x =>
    have k := h.conn hx
    simp only []
    split
    · exact h.replace hx (y := { x with acc := true }) rfl rfl rfl
        ⟨k.ne, k.lt, k.lid, k.known, fun _ => rfl, k.down, k.shut⟩ s.log
    · exact h

theorem inv_exit {n : Nat} {s : St} (h : Inv n s) (i : Nat) : Inv n (exitOf s i) := by
  have get : ∀ {c : Nat} {y : Conn}, (s.conns.map (closeOf i))[c]? = some y → ∃ x, s.conns[c]? = some x ∧ y = closeOf i x := by
    intro c y hy
    rw [List.getElem?_map] at hy
    cases hx : s.conns[c]? with
    | none => simp [hx] at hy
    | some x => simp [hx] at hy; exact ⟨x, rfl, hy.symm⟩
  have dd : ∀ k, (exitOf s i).dead k = false → s.dead k = false ∧ k ≠ i := by
    intro k hk
    simp only [exitOf] at hk
    split at hk
    · cases hk
    · exact ⟨hk, ‹_›⟩
  refine ⟨?_, ?_, ?_, ?_⟩
  · intro c y hy
    obtain ⟨x, hx, rfl⟩ := get hy
    have k := h.conn hx
    refine ⟨k.ne, k.lt, k.lid, k.known, k.acc, ?_, ?_⟩
    · intro b hb
      simp only [closeOf] at hb ⊢
      simp only [exitOf] at hb
      split
      · rfl
      · rename_i ne; simp [ne] at hb; exact k.down b hb
    · intro b hb
      simp only [closeOf, exitOf] at hb ⊢
      by_cases e : x.own b = i
      · left; simp [e]
      · simp [e] at hb
        rcases k.shut b hb with d | d
        · left; simp [d]
        · right; simp [d]
  · intro a j c b hf
    obtain ⟨x, hx, h1, h2, h3, h4⟩ := h.fdok (show s.fd a j = some (c, b) from hf)
    refine ⟨closeOf i x, by simp [exitOf, hx], h1, h2, h3, ?_⟩
    intro d
    obtain ⟨d1, d2⟩ := dd a d
    simp only [closeOf]; rw [if_neg (by rw [h1]; exact d2)]; exact h4 d1
  · intro c y hy d1 d2
    obtain ⟨x, hx, rfl⟩ := get hy
    exact h.once (x := x) hx (dd _ d1).1 (dd _ d2).1
  · intro c c' y y' hy hy' e1 e2
    obtain ⟨x, hx, rfl⟩ := get hy
    obtain ⟨x', hx', rfl⟩ := get hy'
    exact h.uniq hx hx' e1 e2

/-- Removing the first item. -/
theorem CInv.pop {n dead x} (h : CInv n dead x) {b : Bool} {a : Item} {r : List Item} (hq : x.q b = a :: r)
    (hk : x.lid b ≠ none) : CInv n dead { x with q := upd x.q b r } := by
  refine ⟨h.ne, h.lt, ?_, ?_, h.acc, h.down, h.shut⟩
  · intro b'
    rcases h.lid b' with e | ⟨rfl, e, r', er, pr⟩
    · exact .inl e
    · right
      refine ⟨rfl, e, r', ?_, pr⟩
      by_cases eb : true = b
      · subst eb; exact absurd e hk
      · simp [upd, eb, er]
  · intro b' hk'
    by_cases eb : b' = b
    · subst eb; simp; exact (hq ▸ h.known b' hk').tail
    · simp only [upd_other _ _ eb]; exact h.known b' hk'

theorem inv_gotCmd {n : Nat} {s : St} (h : Inv n s) {c : Nat} {b : Bool} {x : Conn} (hx : s.conns[c]? = some x)
    {m : Nat} {r : List Item} (hq : x.q b = .msg m :: r) :
    Inv n (gotCmd s c b { x with q := upd x.q b r } m) := by
  have k := h.conn hx
  have hk : x.lid b ≠ none := by
    rcases k.lid b with e | ⟨rfl, e, r', er, _⟩
    · rw [e]; nofun
    · rw [hq] at er; simp at er
  unfold gotCmd
  cases hl : x.lid b with
  | none => exact absurd hl hk
  | some l => simp only [hl]; exact h.replace hx (y := { x with q := upd x.q b r }) rfl rfl rfl (k.pop hq hk) _

/-- State after "myid". -/
theorem gotMyid_eq {n : Nat} {s : St} (h : Inv n s) {c : Nat} {b : Bool} {x : Conn} (hx : s.conns[c]? = some x)
    {i : Nat} {r : List Item} (hq : x.q b = .myid i :: r) :
    b = true ∧ i = x.own false ∧ x.lid true = none ∧ Plain r ∧
    gotMyid n s c b { x with q := upd x.q b r } i = .ok { s with
      conns := s.conns.set c { x with q := upd x.q true r, lid := upd x.lid true (some (x.own false)) }
      fd := upd2 s.fd (x.own true) (x.own false) (some (c, true)) } := by
  have k := h.conn hx
  rcases k.lid b with e | ⟨rfl, e, r', er, pr⟩
  · exact (hq ▸ k.known b (by rw [e]; nofun)).not_myid.elim
  · rw [hq] at er; simp at er
    obtain ⟨rfl, rfl⟩ := er
    refine ⟨rfl, rfl, e, pr, ?_⟩
    have := k.lt false
    unfold gotMyid
    simp only [e]
    rw [if_neg k.ne, if_neg (by omega)]

theorem inv_gotMyid {n : Nat} {s : St} (h : Inv n s) {c : Nat} {x : Conn} (hx : s.conns[c]? = some x)
    {r : List Item} (hop : x.op true = true) (hacc : x.acc = true)
    (pr : Plain r) :
    Inv n { s with
      conns := s.conns.set c { x with q := upd x.q true r, lid := upd x.lid true (some (x.own false)) }
      fd := upd2 s.fd (x.own true) (x.own false) (some (c, true)) } := by
  have k := h.conn hx
  have hy : CInv n s.dead { x with q := upd x.q true r, lid := upd x.lid true (some (x.own false)) } := by
    refine ⟨k.ne, k.lt, ?_, ?_, fun _ => hacc, k.down, k.shut⟩
    · intro b; cases b
      · rcases k.lid false with e | ⟨e, _⟩
        · left; simpa [upd] using e
        · cases e
      · left; simp
    · intro b; cases b
      · intro e; simp [upd] at e ⊢; exact k.known false e
      · intro _; simpa using pr
  refine ⟨?_, ?_, ?_, ?_⟩
  · intro c' z hz
    rcases get_set hx hz with ⟨rfl, rfl⟩ | ⟨_, hz⟩
    · exact hy
    · exact h.conn hz
  · intro i j c' b hf
    simp only [upd2] at hf
    split at hf
    · rename_i hij; obtain ⟨rfl, rfl⟩ := hij
      injection hf with hf; injection hf with e1 e2; subst e1; subst e2
      exact ⟨_, get_set_same _ hx, rfl, rfl, by simp, fun _ => hop⟩
    · obtain ⟨z, hz, h1, h2, h3, h4⟩ := h.fdok hf
      by_cases e : c' = c
      · subst e
        rw [hx] at hz; cases hz
        refine ⟨_, get_set_same _ hx, h1, h2, ?_, h4⟩
        cases b
        · simpa [upd] using h3
        · simpa using h2
      · exact ⟨z, by simp only [get_set_ne _ e]; exact hz, h1, h2, h3, h4⟩
  · intro c' z hz d1 d2
    simp only [upd2]
    split
    · rfl
    rcases get_set hx hz with ⟨rfl, rfl⟩ | ⟨_, hz⟩
    · exact h.once (x := x) hx d1 d2
    · exact h.once hz d1 d2
  · intro c1 c2 z1 z2 hz1 hz2 e1 e2
    rcases get_set hx hz1 with ⟨rfl, rfl⟩ | ⟨_, k1⟩ <;> rcases get_set hx hz2 with ⟨rfl, rfl⟩ | ⟨_, k2⟩
    · rfl
    · exact h.uniq hx k2 e1 e2
    · exact h.uniq k1 hx e1 e2
    · exact h.uniq k1 k2 e1 e2

/-- At the end of input the sender is known. -/
theorem end_known {n : Nat} {s : St} (h : Inv n s) {c : Nat} {b : Bool} {x : Conn} (hx : s.conns[c]? = some x)
    (hq : x.q b = []) : x.lid b = some (x.own (!b)) := by
  rcases (h.conn hx).lid b with e | ⟨rfl, e, r', er, pr⟩
  · exact e
  · rw [hq] at er; cases er

theorem inv_end {n : Nat} {s : St} (h : Inv n s) {c : Nat} {b : Bool} {x : Conn} (hx : s.conns[c]? = some x)
    (hop : x.op b = true) (hcl : x.op (!b) = false) (hf : s.fd (x.own b) (x.own (!b)) = some (c, b)) :
    Inv n { s with conns := s.conns.set c { x with op := upd x.op b false }
                   fd := upd2 s.fd (x.own b) (x.own (!b)) none } := by
  have k := h.conn hx
  have hd : s.dead (x.own (!b)) = true := by
    rcases k.shut (!b) hcl with d | d
    · exact d
    · simp only [Bool.not_not] at d; have := k.down b d; rw [hop] at this; cases this
  refine ⟨?_, ?_, ?_, ?_⟩
  · intro c' z hz
    rcases get_set hx hz with ⟨rfl, rfl⟩ | ⟨_, hz⟩
    · refine ⟨k.ne, k.lt, k.lid, k.known, k.acc, ?_, ?_⟩
      · intro b' d
        by_cases e : b' = b
        · subst e; simp
        · simp only [upd_other _ _ e]; exact k.down b' d
      · intro b' d
        by_cases e : b' = b
        · subst e; right; exact hd
        · simp only [upd_other _ _ e] at d; exact k.shut b' d
    · exact h.conn hz
  · intro i j c' b' hf'
    simp only [upd2] at hf'
    split at hf'
    · cases hf'
    · rename_i hne
      obtain ⟨z, hz, h1, h2, h3, h4⟩ := h.fdok hf'
      by_cases e : c' = c
      · subst e
        rw [hx] at hz; cases hz
        have eb : b' ≠ b := by
          intro e; subst e; exact hne ⟨h1.symm, h2.symm⟩
        exact ⟨_, get_set_same _ hx, h1, h2, h3, by simp only [upd_other _ _ eb]; exact h4⟩
      · exact ⟨z, by simp only [get_set_ne _ e]; exact hz, h1, h2, h3, h4⟩
  · intro c' z hz d1 d2
    have own : ∃ w : Conn, s.conns[c']? = some w ∧ w.own = z.own := by
      rcases get_set hx hz with ⟨rfl, rfl⟩ | ⟨_, hz⟩
      · exact ⟨x, hx, rfl⟩
      · exact ⟨z, hz, rfl⟩
    obtain ⟨w, hw, ew⟩ := own
    simp only [upd2]
    split
    · rename_i hij
      cases b
      · simp only [Bool.not_false] at hij hd; simp only [hij.2, hd] at d2; cases d2
      · simp only [Bool.not_true] at hij hd; simp only [hij.2, hd] at d2; cases d2
    · rw [← ew] at d1 d2 ⊢; exact h.once hw d1 d2
  · intro c1 c2 z1 z2 hz1 hz2 e1 e2
    rcases get_set hx hz1 with ⟨rfl, rfl⟩ | ⟨_, k1⟩ <;> rcases get_set hx hz2 with ⟨rfl, rfl⟩ | ⟨_, k2⟩
    · rfl
    · exact h.uniq hx k2 e1 e2
    · exact h.uniq k1 hx e1 e2
    · exact h.uniq k1 k2 e1 e2

/-- What reading does in states of runs. -/
inductive ReadRes (n : Nat) (s : St) (c : Nat) (b : Bool) : Except Fault St → Prop
  | same : ReadRes n s c b (.ok s)
  | myid (x : Conn) (r : List Item) : s.conns[c]? = some x → b = true → x.q true = .myid (x.own false) :: r → Plain r →
      x.lid true = none → x.op true = true → x.acc = true →
      ReadRes n s c b (.ok { s with
        conns := s.conns.set c { x with q := upd x.q true r, lid := upd x.lid true (some (x.own false)) }
        fd := upd2 s.fd (x.own true) (x.own false) (some (c, true)) })
  | msg (x : Conn) (m : Nat) (r : List Item) : s.conns[c]? = some x → x.q b = .msg m :: r →
      x.lid b = some (x.own (!b)) → x.op b = true →
      ReadRes n s c b (.ok { s with conns := s.conns.set c { x with q := upd x.q b r }
                                    log := s.log ++ [(x.own b, x.own (!b), m)] })
  | close (x : Conn) : s.conns[c]? = some x → x.q b = [] → x.op b = true → x.op (!b) = false →
      x.lid b = some (x.own (!b)) → s.fd (x.own b) (x.own (!b)) = some (c, b) →
      ReadRes n s c b (.ok { s with conns := s.conns.set c { x with op := upd x.op b false }
                                    fd := upd2 s.fd (x.own b) (x.own (!b)) none })
  | fault (x : Conn) : s.conns[c]? = some x → x.q b = [] → x.op b = true → x.op (!b) = false →
      x.lid b = some (x.own (!b)) → s.fd (x.own b) (x.own (!b)) ≠ some (c, b) →
      ReadRes n s c b (.error .closed)

theorem read_res {n : Nat} {s : St} (h : Inv n s) (c : Nat) (b : Bool) : ReadRes n s c b (read n s c b) := by
  unfold read
  cases hx : s.conns[c]? with
  | none => exact .same
  | some x =>
    simp only []
    by_cases hop : x.op b = true ∧ (b = true → x.acc = true)
    · rw [if_pos hop]
      match hq : x.q b with
      | .myid i :: r =>
        obtain ⟨rfl, rfl, hl, pr, e⟩ := gotMyid_eq h hx hq
        simp only [] at e ⊢; rw [e]
        exact .myid x r hx rfl hq pr hl hop.1 (hop.2 rfl)
      | .msg m :: r =>
        have k := h.conn hx
        have hk : x.lid b = some (x.own (!b)) := by
          rcases k.lid b with e | ⟨rfl, e, r', er, _⟩
          · exact e
          · rw [hq] at er; simp at er
        simp only [gotCmd, hk]
        exact .msg x m r hx hq hk hop.1
      | [] =>
        simp only []
        have hk := end_known h hx hq
        by_cases hc : x.op (!b) = true
        · rw [if_pos hc]; exact .same
        · rw [if_neg hc]
          have hc' : x.op (!b) = false := by simpa using hc
          unfold gotEnd
          simp only [hk]
          by_cases hf : s.fd (x.own b) (x.own (!b)) = some (c, b)
          · rw [if_pos hf]; exact .close x hx hq hop.1 hc' hk hf
          · rw [if_neg hf]; exact .fault x hx hq hop.1 hc' hk hf
    · rw [if_neg hop]; exact .same

theorem inv_read {n : Nat} {s : St} (h : Inv n s) (c : Nat) (b : Bool) {s' : St} (e : read n s c b = .ok s') : Inv n s' := by
  have r := read_res h c b
  rw [e] at r
  cases r with
  | same => exact h
  | myid x r hx eb hq pr hl hop hacc => exact inv_gotMyid h hx hop hacc pr
  | msg x m r hx hq hk hop => exact h.replace hx (y := { x with q := upd x.q b r }) rfl rfl rfl ((h.conn hx).pop hq (by rw [hk]; nofun)) _
  | close x hx hq hop hcl hk hf => exact inv_end h hx hop hcl hf

theorem inv_step {n : Nat} {s s' : St} (h : Inv n s) (e : Ev) (hs : step n s e = .ok s') : Inv n s' := by
  cases e with
  | send i j m =>
    simp only [step] at hs
    split at hs
    · injection hs with hs; exact hs ▸ h
    · rename_i hc
      injection hs with hs
      rw [← hs]
      have hc1 : s.dead i ≠ true := fun e => hc (.inl e)
      have hc2 : i ≠ j := fun e => hc (.inr (.inl e))
      have hc3 : ¬ n ≤ i := fun e => hc (.inr (.inr (.inl e)))
      have hc4 : ¬ n ≤ j := fun e => hc (.inr (.inr (.inr e)))
      exact inv_send h (by omega) (by omega) hc2 (by simpa using hc1) m
  | accept c => simp only [step] at hs; injection hs with hs; exact hs ▸ inv_accept h c
  | read c b => exact inv_read h c b hs
  | exit i => simp only [step] at hs; injection hs with hs; exact hs ▸ inv_exit h i

theorem inv_init (n : Nat) : Inv n (init n) := by
  have get : ∀ {c : Nat} {x : Conn}, (init n).conns[c]? = some x → c < n - 1 ∧ x = regConn (c + 1) := by
    intro c x hc
    have hl := lt_of_get hc
    simp [init] at hl
    simp [init, hl] at hc
    exact ⟨hl, hc.symm⟩
  refine ⟨?_, ?_, ?_, ?_⟩
  · intro c x hc
    obtain ⟨hl, rfl⟩ := get hc
    refine ⟨by simp [regConn], ?_, ?_, ?_, fun _ => rfl, ?_, ?_⟩
    · intro b; cases b <;> simp [regConn] <;> omega
    · intro b; left; cases b <;> simp [regConn]
    · intro b _; exact plain_nil
    · intro b d; simp [init] at d
    · intro b d; simp [regConn] at d
  · intro i j c b hf
    simp only [init] at hf
    split at hf
    · rename_i hn
      split at hf
      · rename_i hi
        injection hf with hf; injection hf with e1 e2; subst e1; subst e2; subst hi
        have hj : j - 1 + 1 = j := by omega
        refine ⟨regConn j, ?_, by simp [regConn], by simp [regConn], by simp [regConn], by simp [regConn]⟩
        have : j - 1 < n - 1 := by omega
        simp [init, this, hj]
      · split at hf
        · rename_i hi hj
          injection hf with hf; injection hf with e1 e2; subst e1; subst e2; subst hj
          have hj : i - 1 + 1 = i := by omega
          refine ⟨regConn i, ?_, by simp [regConn], by simp [regConn], by simp [regConn], by simp [regConn]⟩
          have : i - 1 < n - 1 := by omega
          simp [init, this, hj]
        · cases hf
    · cases hf
  · intro c x hc _ _
    obtain ⟨hl, rfl⟩ := get hc
    have : c + 1 < n ∧ 0 < n := by omega
    simp [regConn, init, this]
  · intro c c' x y hc hc' e1 e2
    obtain ⟨hl, rfl⟩ := get hc
    obtain ⟨hl', rfl⟩ := get hc'
    simp [regConn] at e1; exact e1

theorem run_append (n : Nat) (s : St) (l l' : List Ev) :
    run n s (l ++ l') = match run n s l with | .ok s' => run n s' l' | .error f => .error f := by
  induction l generalizing s with
  | nil => rfl
  | cons e t ih =>
    simp only [List.cons_append, run]
    cases step n s e with
    | ok s' => exact ih s'
    | error f => rfl

theorem inv_run {n : Nat} {s s' : St} (h : Inv n s) (l : List Ev) (hr : run n s l = .ok s') : Inv n s' := by
  induction l generalizing s with
  | nil => simp only [run] at hr; injection hr with hr; exact hr ▸ h
  | cons e t ih =>
    simp only [run] at hr
    cases hs : step n s e with
    | ok s1 => rw [hs] at hr; exact ih (inv_step h e hs) hr
    | error f => rw [hs] at hr; cases hr

end Laik.Co
