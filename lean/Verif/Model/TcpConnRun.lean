import Verif.Model.TcpConnLemmas

/-! # Messages in runs of the TCP2 backend: C70 -/

namespace Laik.Co

/-! ### Connections stay -/

/-- Connections stay in their places, with their processes. -/
def Ext (s s' : St) : Prop :=
  ∀ (c : Nat) (x : Conn), s.conns[c]? = some x → ∃ y, s'.conns[c]? = some y ∧ y.own = x.own

theorem Ext.refl (s : St) : Ext s s := fun _ x h => ⟨x, h, rfl⟩
theorem Ext.trans {a b c : St} (h : Ext a b) (h' : Ext b c) : Ext a c := by
  intro k x hx
  obtain ⟨y, hy, e⟩ := h k x hx
  obtain ⟨z, hz, e'⟩ := h' k y hy
  exact ⟨z, hz, e'.trans e⟩

theorem Ext.single {s s' : St} (h : Ext s s') (hs : Single s') : Single s := by
  intro c c' x y hx hy e
  obtain ⟨x', hx', ex⟩ := h c x hx
  obtain ⟨y', hy', ey⟩ := h c' y hy
  exact hs c c' x' y' hx' hy' (by rw [ex, ey]; exact e)

theorem ext_set {s s' : St} {c : Nat} {x y : Conn} (hx : s.conns[c]? = some x) (e : s'.conns = s.conns.set c y)
    (own : y.own = x.own) : Ext s s' := by
  intro c' z hz
  by_cases ec : c' = c
  · subst ec; rw [hx] at hz; cases hz
    exact ⟨y, by rw [e]; exact get_set_same y hx, own⟩
  · exact ⟨z, by rw [e, get_set_ne y ec]; exact hz, rfl⟩

theorem ext_ensure (s : St) (i j : Nat) : Ext s (ensureConn s i j) := by
  unfold ensureConn
  split
  · exact .refl s
  · split
    · exact .refl s
    · split
      · exact fun c x h => ⟨x, h, rfl⟩
      · intro c x h
        exact ⟨x, by simp only []; rw [List.getElem?_append_left (lt_of_get h)]; exact h, rfl⟩

theorem ext_write (s : St) (i j : Nat) (it : Item) : Ext s (write s i j it) := by
  unfold write
  split
  · exact .refl s
  · rename_i c b _
    cases hx : s.conns[c]? with
    | none => exact .refl s
    | some x =>
      simp only []
      split
      · exact ext_set hx rfl rfl
      · exact .refl s

theorem ext_step {n : Nat} {s s' : St} (h : Inv n s) (e : Ev) (hs : step n s e = .ok s') : Ext s s' := by
  cases e with
  | send i j m =>
    simp only [step] at hs
    split at hs
    · injection hs with hs; exact hs ▸ .refl s
    · injection hs with hs
      rw [← hs]; unfold send; simp only []
      split
      · exact ext_ensure s i j
      · exact (ext_ensure s i j).trans (ext_write _ i j _)
  | accept c =>
    simp only [step] at hs; injection hs with hs; rw [← hs]; unfold accept
    cases hx : s.conns[c]? with
    | none => exact .refl s
    | some x =>
      simp only []
      split
      · exact ext_set hx rfl rfl
      · exact .refl s
  | read c b =>
    have r := read_res h c b
    rw [show read n s c b = .ok s' from hs] at r
    cases r with
    | same => exact .refl _
    | myid x r hx eb hq pr hl hop hacc => exact ext_set hx rfl rfl
    | msg x m r hx hq hk hop => exact ext_set hx rfl rfl
    | close x hx hq hop hcl hk hf => exact ext_set hx rfl rfl
  | exit i =>
    simp only [step] at hs; injection hs with hs; rw [← hs]
    intro c x hx
    exact ⟨closeOf i x, by simp [exitOf, hx], rfl⟩

/-! ### Ended processes -/

theorem dead_ensure (s : St) (i j : Nat) : (ensureConn s i j).dead = s.dead := by
  unfold ensureConn
  split
  · rfl
  · split
    · rfl
    · split <;> rfl

theorem dead_write (s : St) (i j : Nat) (it : Item) : (write s i j it).dead = s.dead := by
  unfold write
  split
  · rfl
  · split
    · rfl
    · split <;> rfl

theorem dead_step {n : Nat} {s s' : St} (h : Inv n s) (e : Ev) (hs : step n s e = .ok s') (k : Nat) :
    s'.dead k = (s.dead k || decide (e = .exit k)) := by
  cases e with
  | send i j m =>
    simp only [step] at hs
    split at hs
    · injection hs with hs; rw [← hs]; simp
    · injection hs with hs
      rw [← hs]; unfold send; simp only []
      split
      · simp [dead_ensure]
      · simp [dead_write, dead_ensure]
  | accept c =>
    simp only [step] at hs; injection hs with hs; rw [← hs]; unfold accept
    split
    · simp
    · split <;> simp
  | read c b =>
    have r := read_res h c b
    rw [show read n s c b = .ok s' from hs] at r
    cases r <;> simp
  | exit i =>
    simp only [step] at hs; injection hs with hs; rw [← hs]
    simp only [exitOf]
    by_cases e : k = i
    · subst e; simp
    · have : ¬ i = k := fun e' => e e'.symm
      simp [e, this]

theorem dead_run {n : Nat} {s s' : St} (h : Inv n s) (l : List Ev) (hr : run n s l = .ok s') (k : Nat) :
    s'.dead k = (s.dead k || decide (Ev.exit k ∈ l)) := by
  induction l generalizing s with
  | nil => simp only [run] at hr; injection hr with hr; simp [hr]
  | cons e t ih =>
    simp only [run] at hr
    cases hs : step n s e with
    | ok s1 =>
      rw [hs] at hr
      rw [ih (inv_step h e hs) hr, dead_step h e hs]
      have : (e = Ev.exit k ↔ Ev.exit k = e) := ⟨Eq.symm, Eq.symm⟩
      simp [this, Bool.or_assoc]
    | error f => rw [hs] at hr; cases hr

/-! ### Messages on the way -/

/-- Messages among the items. -/
def msgsOf (l : List Item) : List Nat := l.filterMap (fun a => match a with | .msg m => some m | .myid _ => none)

@[simp] theorem msgsOf_append (l l' : List Item) : msgsOf (l ++ l') = msgsOf l ++ msgsOf l' := by simp [msgsOf]
@[simp] theorem msgsOf_msg (m : Nat) (l : List Item) : msgsOf (.msg m :: l) = m :: msgsOf l := by simp [msgsOf]
@[simp] theorem msgsOf_myid (m : Nat) (l : List Item) : msgsOf (.myid m :: l) = msgsOf l := by simp [msgsOf]
@[simp] theorem msgsOf_nil : msgsOf [] = [] := rfl

/-- Messages from `i` to `j` which wait at end `b`. -/
def part1 (i j : Nat) (x : Conn) (b : Bool) : List Nat :=
  if x.own (!b) = i ∧ x.own b = j then msgsOf (x.q b) else []

/-- Messages from `i` to `j` in a connection. -/
def part (i j : Nat) (x : Conn) : List Nat := part1 i j x false ++ part1 i j x true

/-- Messages from `i` to `j` on the way. -/
def flight (s : St) (i j : Nat) : List Nat := s.conns.flatMap (part i j)

theorem part_match {i j : Nat} {x : Conn} {b : Bool} (hij : i ≠ j) (h : x.own (!b) = i ∧ x.own b = j) :
    part i j x = msgsOf (x.q b) := by
  obtain ⟨rfl, rfl⟩ := h
  have ne : x.own false ≠ x.own true := by
    intro e; cases b
    · exact hij e.symm
    · exact hij e
  cases b
  · have : ¬ (x.own false = x.own true ∧ x.own true = x.own false) := fun e => ne e.1
    simp [part, part1, this]
  · have : ¬ (x.own true = x.own false ∧ x.own false = x.own true) := fun e => ne e.2
    simp [part, part1, this]

theorem part_other {i j : Nat} {x y : Conn} {b : Bool} (h : ¬ (x.own (!b) = i ∧ x.own b = j))
    (own : y.own = x.own) (q : y.q (!b) = x.q (!b)) : part i j y = part i j x := by
  cases b
  · simp only [Bool.not_false] at h q
    simp [part, part1, own, q, h]
  · simp only [Bool.not_true] at h q
    simp [part, part1, own, q, h]

theorem part_none {i j : Nat} {x : Conn} (h1 : ¬ (x.own true = i ∧ x.own false = j))
    (h2 : ¬ (x.own false = i ∧ x.own true = j)) : part i j x = [] := by
  simp [part, part1, h1, h2]

theorem part_same {i j : Nat} {x y : Conn} (own : y.own = x.own) (q : ∀ b, msgsOf (y.q b) = msgsOf (x.q b)) :
    part i j y = part i j x := by
  simp [part, part1, own, q]

theorem split_at {A : Type} {l : List A} {c : Nat} {x : A} (h : l[c]? = some x) :
    ∃ l1 l2, l = l1 ++ x :: l2 ∧ l1.length = c ∧ ∀ y, l.set c y = l1 ++ y :: l2 := by
  induction l generalizing c with
  | nil => simp at h
  | cons a t ih =>
    cases c with
    | zero => simp at h; subst h; exact ⟨[], t, rfl, rfl, fun y => rfl⟩
    | succ c =>
      simp at h
      obtain ⟨l1, l2, e, el, f⟩ := ih h
      exact ⟨a :: l1, l2, by rw [e]; rfl, by simp [el], fun y => by simp [f y]⟩

/-- Messages on the way if one connection is replaced; all are in this connection if it
is the only one between the two processes. -/
theorem flight_set (s : St) {c : Nat} {x : Conn} (h : s.conns[c]? = some x) (i j : Nat) :
    ∃ A B, flight s i j = A ++ part i j x ++ B ∧
      (∀ (s' : St) (y : Conn), s'.conns = s.conns.set c y → flight s' i j = A ++ part i j y ++ B) ∧
      (Single s → (∃ b, x.own (!b) = i ∧ x.own b = j) → A = [] ∧ B = []) := by
  obtain ⟨l1, l2, e, el, f⟩ := split_at h
  refine ⟨l1.flatMap (part i j), l2.flatMap (part i j), by simp [flight, e], ?_, ?_⟩
  · intro s' y e'; simp [flight, e', f y]
  · intro hs ⟨b, hb⟩
    have key : ∀ (c' : Nat) (z : Conn), s.conns[c']? = some z → c' ≠ c → part i j z = [] := by
      intro c' z hz hc
      refine part_none (fun hh => hc (hs c' c z x hz h ?_)) (fun hh => hc (hs c' c z x hz h ?_))
      · cases b
        · left; exact ⟨hh.2.trans hb.2.symm, hh.1.trans hb.1.symm⟩
        · right; exact ⟨hh.2.trans hb.2.symm, hh.1.trans hb.1.symm⟩
      · cases b
        · right; exact ⟨hh.1.trans hb.1.symm, hh.2.trans hb.2.symm⟩
        · left; exact ⟨hh.1.trans hb.1.symm, hh.2.trans hb.2.symm⟩
    constructor
    · rw [List.flatMap_eq_nil_iff]
      intro z hz
      obtain ⟨k, hk, ek⟩ := List.getElem_of_mem hz
      refine key k z ?_ (by omega)
      rw [e, List.getElem?_append_left hk, List.getElem?_eq_getElem hk, ek]
    · rw [List.flatMap_eq_nil_iff]
      intro z hz
      obtain ⟨k, hk, ek⟩ := List.getElem_of_mem hz
      refine key (l1.length + (k + 1)) z ?_ (by omega)
      rw [e, List.getElem?_append_right (by omega)]
      have : l1.length + (k + 1) - l1.length = k + 1 := by omega
      rw [this, List.getElem?_cons_succ, List.getElem?_eq_getElem hk, ek]

/-! ### What events do to messages from `i` to `j` -/

/-- `new`: messages sent by the event. -/
inductive Eff (s s' : St) (i j : Nat) : List Nat → Prop
  | same : handled s' i j = handled s i j → flight s' i j = flight s i j → Eff s s' i j []
  | put (A P B : List Nat) (m : Nat) : handled s' i j = handled s i j → flight s i j = A ++ P ++ B →
      flight s' i j = A ++ (P ++ [m]) ++ B → (Single s' → A = [] ∧ B = []) → s.dead j = false → Eff s s' i j [m]
  | lost (m : Nat) : handled s' i j = handled s i j → flight s' i j = flight s i j → s.dead j = true → Eff s s' i j [m]
  | got (A P B : List Nat) (m : Nat) : handled s' i j = handled s i j ++ [m] → flight s i j = A ++ (m :: P) ++ B →
      flight s' i j = A ++ P ++ B → (Single s' → A = [] ∧ B = []) → Eff s s' i j []

/-- Messages from `i` to `j` sent by an event. -/
def newOf (s : St) (i j : Nat) : Ev → List Nat
  | .send a b m => if a = i ∧ b = j ∧ s.dead i = false then [m] else []
  | _ => []

theorem flight_ensure (s : St) (a b i j : Nat) : flight (ensureConn s a b) i j = flight s i j := by
  unfold ensureConn
  split
  · rfl
  · split
    · rfl
    · split
      · rfl
      · have : part i j (newConn a b) = [] := by simp [part, part1, newConn]
        simp [flight, this]

theorem log_ensure (s : St) (a b : Nat) : (ensureConn s a b).log = s.log := by
  unfold ensureConn
  split
  · rfl
  · split
    · rfl
    · split <;> rfl

theorem log_write (s : St) (a b : Nat) (it : Item) : (write s a b it).log = s.log := by
  unfold write
  split
  · rfl
  · split
    · rfl
    · split <;> rfl

theorem handled_log {s s' : St} (e : s'.log = s.log) (i j : Nat) : handled s' i j = handled s i j := by
  simp [handled, e]

/-- After `ensure_conn` there is a connection, or the other process has ended. -/
theorem ensure_fd {n : Nat} {s : St} (i j : Nat) (hd : (ensureConn s i j).err i j = true → s.dead j = true) :
    (ensureConn s i j).fd i j ≠ none ∨ s.dead j = true := by
  unfold ensureConn at hd ⊢
  cases hf : s.fd i j with
  | some p => left; simp [hf]
  | none =>
    simp only [hf] at hd ⊢
    by_cases he : s.err i j = true
    · rw [if_pos he] at hd; exact .inr (hd he)
    · rw [if_neg he] at hd ⊢
      by_cases hj : s.dead j = true
      · exact .inr hj
      · rw [if_neg hj]; left; simp

/-- Only ended processes are marked as broken. -/
def ErrOk (s : St) : Prop := ∀ i j, s.err i j = true → s.dead j = true

theorem err_ensure {s : St} (h : ErrOk s) (a b : Nat) : ErrOk (ensureConn s a b) := by
  intro i j e
  rw [dead_ensure]
  unfold ensureConn at e
  split at e
  · exact h i j e
  · split at e
    · exact h i j e
    · split at e
      · rename_i hd
        simp only [upd2] at e
        split at e
        · rename_i hij; rw [hij.2]; exact hd
        · exact h i j e
      · exact h i j e

theorem err_write (s : St) (a b : Nat) (it : Item) : (write s a b it).err = s.err := by
  unfold write
  split
  · rfl
  · split
    · rfl
    · split <;> rfl

theorem err_step {n : Nat} {s s' : St} (h : Inv n s) (he : ErrOk s) (e : Ev) (hs : step n s e = .ok s') : ErrOk s' := by
  cases e with
  | send i j m =>
    simp only [step] at hs
    split at hs
    · injection hs with hs; exact hs ▸ he
    · injection hs with hs
      rw [← hs]; unfold send; simp only []
      split
      · exact err_ensure he i j
      · intro a b hab
        rw [err_write] at hab; rw [dead_write]; exact err_ensure he i j a b hab
  | accept c =>
    simp only [step] at hs; injection hs with hs; rw [← hs]; unfold accept
    split
    · exact he
    · split <;> exact he
  | read c b =>
    have r := read_res h c b
    rw [show read n s c b = .ok s' from hs] at r
    cases r <;> exact he
  | exit i =>
    simp only [step] at hs; injection hs with hs; rw [← hs]
    intro a b hab
    simp only [exitOf]
    split
    · rfl
    · exact he a b hab

theorem eff_send {n : Nat} {s : St} (h : Inv n s) (he : ErrOk s) {a b : Nat} (m : Nat) (ha : a < n) (hb : b < n)
    (hab : a ≠ b) (da : s.dead a = false) {i j : Nat} (hij : i ≠ j) :
    Eff s (send s a b m) i j (if a = i ∧ b = j then [m] else []) := by
  have h1 := inv_ensure h ha hb hab da
  have e1 := err_ensure he a b
  have hlog : (send s a b m).log = s.log := by
    unfold send; simp only []; split
    · exact log_ensure s a b
    · rw [log_write]; exact log_ensure s a b
  unfold send at hlog ⊢
  simp only [] at hlog ⊢
  by_cases hr : (ensureConn s a b).err a b = true
  · rw [if_pos hr] at hlog ⊢
    have hd := e1 a b hr
    rw [dead_ensure] at hd
    split
    · rename_i e; exact .lost m (handled_log hlog i j) (flight_ensure s a b i j) (e.2 ▸ hd)
    · exact .same (handled_log hlog i j) (flight_ensure s a b i j)
  · rw [if_neg hr] at hlog ⊢
    have hl := handled_log hlog i j
    clear hlog
    rcases ensure_fd (n := n) (s := s) a b (fun e => absurd e hr) with hf | hd
    · cases hp : (ensureConn s a b).fd a b with
      | none => exact absurd hp hf
      | some p =>
        obtain ⟨c, e⟩ := p
        obtain ⟨x, hx, o1, o2, o3, o4⟩ := h1.fdok hp
        obtain ⟨A, B, f1, f2, f3⟩ := flight_set (ensureConn s a b) hx i j
        rw [flight_ensure] at f1
        have ew : write (ensureConn s a b) a b (.msg m) = if x.op (!e) then { (ensureConn s a b) with conns := (ensureConn s a b).conns.set c { x with q := upd x.q (!e) (x.q (!e) ++ [.msg m]) } } else ensureConn s a b := by
          unfold write; simp only [hp, hx]
        rw [ew] at hl ⊢
        by_cases hop : x.op (!e) = true
        · rw [if_pos hop] at hl ⊢
          have hnd : s.dead b = false := by
            cases hd : s.dead b with
            | false => rfl
            | true =>
              have := (h1.conn hx).down (!e) (by rw [dead_ensure, o2]; exact hd)
              rw [hop] at this; cases this
          have f2' := f2 { (ensureConn s a b) with conns := (ensureConn s a b).conns.set c { x with q := upd x.q (!e) (x.q (!e) ++ [.msg m]) } } _ rfl
          by_cases eij : a = i ∧ b = j
          · rw [if_pos eij]
            have hm : x.own (!(!e)) = i ∧ x.own (!e) = j := by simp only [Bool.not_not]; exact ⟨o1.trans eij.1, o2.trans eij.2⟩
            rw [part_match hij hm] at f1
            rw [part_match (x := { x with q := upd x.q (!e) (x.q (!e) ++ [.msg m]) }) hij hm] at f2'
            simp only [upd_same, msgsOf_append, msgsOf_msg, msgsOf_nil] at f2'
            refine .put A _ B m hl f1 f2' ?_ (eij.2 ▸ hnd)
            intro hs'
            exact f3 ((ext_set (s' := { (ensureConn s a b) with conns := (ensureConn s a b).conns.set c { x with q := upd x.q (!e) (x.q (!e) ++ [.msg m]) } }) hx rfl rfl).single hs') ⟨!e, hm⟩
          · rw [if_neg eij]
            refine .same hl ?_
            have hn : ¬ (x.own (!(!e)) = i ∧ x.own (!e) = j) := by
              simp only [Bool.not_not]
              exact fun hh => eij ⟨o1.symm.trans hh.1, o2.symm.trans hh.2⟩
            rw [f2', f1, part_other (x := x) (y := { x with q := upd x.q (!e) (x.q (!e) ++ [.msg m]) }) hn rfl (by simp)]
        · rw [if_neg hop] at hl ⊢
          split
          · rename_i eij
            refine .lost m hl (flight_ensure s a b i j) ?_
            have hop' : x.op (!e) = false := by simpa using hop
            rcases (h1.conn hx).shut (!e) hop' with d | d
            · rw [dead_ensure, o2, eij.2] at d; exact d
            · simp only [Bool.not_not] at d
              rw [dead_ensure, o1, da] at d; cases d
          · exact .same hl (flight_ensure s a b i j)
    · have : write (ensureConn s a b) a b (.msg m) = ensureConn s a b ∨
          ∃ c e, (ensureConn s a b).fd a b = some (c, e) := by
        cases hp : (ensureConn s a b).fd a b with
        | none => left; unfold write; simp [hp]
        | some p => right; exact ⟨p.1, p.2, rfl⟩
      rcases this with e | ⟨c, e, hp⟩
      · rw [e]
        split
        · rename_i eij; exact .lost m (by rw [e] at hl; exact hl) (flight_ensure s a b i j) (eij.2 ▸ hd)
        · exact .same (by rw [e] at hl; exact hl) (flight_ensure s a b i j)
      · obtain ⟨x, hx, o1, o2, o3, o4⟩ := h1.fdok hp
        have hop : x.op (!e) = false := (h1.conn hx).down (!e) (by rw [dead_ensure, o2]; exact hd)
        have e : write (ensureConn s a b) a b (.msg m) = ensureConn s a b := by
          unfold write; simp [hp, hx, hop]
        rw [e] at hl ⊢
        split
        · rename_i eij; exact .lost m hl (flight_ensure s a b i j) (eij.2 ▸ hd)
        · exact .same hl (flight_ensure s a b i j)

theorem eff_step {n : Nat} {s s' : St} (h : Inv n s) (he : ErrOk s) (e : Ev) (hs : step n s e = .ok s') {i j : Nat}
    (hi : i < n) (hj : j < n) (hij : i ≠ j) : Eff s s' i j (newOf s i j e) := by
  cases e with
  | send a b m =>
    simp only [step] at hs
    split at hs
    · rename_i hc
      injection hs with hs
      have : newOf s i j (.send a b m) = [] := by
        simp only [newOf]
        rw [if_neg]
        rintro ⟨rfl, rfl, hd⟩
        rcases hc with c | c | c | c
        · rw [hd] at c; cases c
        · exact hij c
        · omega
        · omega
      rw [this, ← hs]; exact .same rfl rfl
    · rename_i hc
      injection hs with hs
      rw [← hs]
      have hc1 : s.dead a ≠ true := fun e => hc (.inl e)
      have hc2 : a ≠ b := fun e => hc (.inr (.inl e))
      have hc3 : ¬ n ≤ a := fun e => hc (.inr (.inr (.inl e)))
      have hc4 : ¬ n ≤ b := fun e => hc (.inr (.inr (.inr e)))
      have hc1' : s.dead a = false := by simpa using hc1
      have := eff_send h he m (by omega) (by omega) hc2 hc1' hij (a := a) (b := b)
      have e : newOf s i j (.send a b m) = if a = i ∧ b = j then [m] else [] := by
        simp only [newOf]
        by_cases eij : a = i ∧ b = j
        · rw [if_pos eij, if_pos ⟨eij.1, eij.2, eij.1 ▸ hc1'⟩]
        · rw [if_neg eij, if_neg (fun hh => eij ⟨hh.1, hh.2.1⟩)]
      rw [e]; exact this
  | accept c =>
    simp only [step] at hs; injection hs with hs; rw [← hs]; unfold accept
    cases hx : s.conns[c]? with
    | none => exact .same rfl rfl
    | some x =>
      simp only []
      split
      · obtain ⟨A, B, f1, f2, _⟩ := flight_set s hx i j
        refine .same rfl ?_
        rw [f2 _ _ rfl, f1]; rfl
      · exact .same rfl rfl
  | read c b =>
    have r := read_res h c b
    rw [show read n s c b = .ok s' from hs] at r
    cases r with
    | same => exact .same rfl rfl
    | myid x r hx eb hq pr hl hop hacc =>
      obtain ⟨A, B, f1, f2, _⟩ := flight_set s hx i j
      refine .same rfl ?_
      have hp : part i j { x with q := upd x.q true r, lid := upd x.lid true (some (x.own false)) } = part i j x := by
        refine part_same rfl ?_
        intro b'
        cases b'
        · simp [upd]
        · simp [hq]
      rw [f2 _ _ rfl, f1, hp]
    | msg x m r hx hq hk hop =>
      obtain ⟨A, B, f1, f2, f3⟩ := flight_set s hx i j
      have f2' := f2 { s with conns := s.conns.set c { x with q := upd x.q b r }, log := s.log ++ [(x.own b, x.own (!b), m)] } _ rfl
      by_cases hm : x.own (!b) = i ∧ x.own b = j
      · rw [part_match hij hm, hq, msgsOf_msg] at f1
        rw [part_match (x := { x with q := upd x.q b r }) hij hm] at f2'
        simp only [upd_same] at f2'
        refine .got A _ B m ?_ f1 f2' ?_
        · simp [handled, hm.1, hm.2]
        · intro hs'
          exact f3 ((ext_set (s' := { s with conns := s.conns.set c { x with q := upd x.q b r }, log := s.log ++ [(x.own b, x.own (!b), m)] }) hx rfl rfl).single hs') ⟨b, hm⟩
      · refine .same ?_ ?_
        · have : ¬ (x.own b = j ∧ x.own (!b) = i) := fun e => hm ⟨e.2, e.1⟩
          simp [handled, this]
        · rw [f2', f1, part_other (x := x) (y := { x with q := upd x.q b r }) hm rfl (by simp)]
    | close x hx hq hop hcl hk hf =>
      obtain ⟨A, B, f1, f2, _⟩ := flight_set s hx i j
      refine .same rfl ?_
      rw [f2 _ _ rfl, f1]; rfl
  | exit k =>
    simp only [step] at hs; injection hs with hs; rw [← hs]
    refine .same rfl ?_
    simp only [flight, exitOf, List.flatMap_map]
    rfl

/-! ### Runs -/

theorem sends_snoc (l : List Ev) (e : Ev) (i j : Nat) :
    sends (l ++ [e]) i j = sends l i j ++ (match e with
      | .send a b m => if a = i ∧ b = j ∧ Ev.exit i ∉ l then [m] else []
      | _ => []) := by
  induction l with
  | nil =>
    cases e with
    | send a b m => simp [sends]
    | exit a => simp [sends]
    | accept c => simp [sends]
    | read c b => simp [sends]
  | cons f t ih =>
    cases f with
    | send a b m =>
      have ih' := ih
      simp only [List.cons_append, sends]
      rw [ih']
      split <;> simp
    | exit a =>
      simp only [List.cons_append, sends]
      by_cases ea : a = i
      · subst ea; simp; cases e <;> simp
      · rw [if_neg ea, if_neg ea, ih]
        have : ¬ i = a := fun e => ea e.symm
        simp [this]
    | accept c => simp only [List.cons_append, sends]; rw [ih]; simp
    | read c b => simp only [List.cons_append, sends]; rw [ih]; simp

theorem run_snoc {n : Nat} {s s' : St} {l : List Ev} {e : Ev} (h : run n s (l ++ [e]) = .ok s') :
    ∃ t, run n s l = .ok t ∧ step n t e = .ok s' := by
  rw [run_append] at h
  cases hr : run n s l with
  | error f => rw [hr] at h; cases h
  | ok t =>
    rw [hr] at h
    refine ⟨t, rfl, ?_⟩
    simp only [run] at h
    cases hs : step n t e with
    | ok u => rw [hs] at h; exact h
    | error f => rw [hs] at h; cases h

theorem snoc_ind {P : List Ev → Prop} (h0 : P []) (h1 : ∀ l e, P l → P (l ++ [e])) (l : List Ev) : P l := by
  have key : ∀ (l : List Ev), P l.reverse := by
    intro l
    induction l with
    | nil => exact h0
    | cons a t ih => rw [List.reverse_cons]; exact h1 _ _ ih
  have := key l.reverse
  rwa [List.reverse_reverse] at this

theorem err_run {n : Nat} (l : List Ev) : ∀ {s' : St}, run n (init n) l = .ok s' → ErrOk s' := by
  refine snoc_ind (P := fun l => ∀ {s' : St}, run n (init n) l = .ok s' → ErrOk s') ?_ ?_ l
  · intro s' h; simp only [run] at h; injection h with h; rw [← h]; intro i j e; simp [init] at e
  · intro l e ih s' h
    obtain ⟨t, ht, hs⟩ := run_snoc h
    exact err_step (inv_run (inv_init n) l ht) (ih ht) e hs

theorem newOf_eq {n : Nat} {l : List Ev} {t : St} (ht : run n (init n) l = .ok t) (e : Ev) (i j : Nat) :
    sends (l ++ [e]) i j = sends l i j ++ newOf t i j e := by
  rw [sends_snoc]
  congr 1
  have hd := dead_run (inv_init n) l ht i
  cases e with
  | send a b m =>
    simp only [newOf]
    rw [hd]
    simp [init]
  | _ => rfl

/-- Messages sent are those handled, on the way, or lost as the receiver has ended. -/
theorem acc_run {n : Nat} {i j : Nat} (hi : i < n) (hj : j < n) (hij : i ≠ j) (l : List Ev) :
    ∀ {s : St}, run n (init n) l = .ok s →
      ∃ L, (handled s i j ++ flight s i j ++ L).Perm (sends l i j) ∧ (L ≠ [] → s.dead j = true) := by
  refine snoc_ind (P := fun l => ∀ {s : St}, run n (init n) l = .ok s →
      ∃ L, (handled s i j ++ flight s i j ++ L).Perm (sends l i j) ∧ (L ≠ [] → s.dead j = true)) ?_ ?_ l
  · intro s h
    simp only [run] at h; injection h with h; rw [← h]
    have : flight (init n) i j = [] := by
      simp only [flight, List.flatMap_eq_nil_iff]
      intro x hx
      simp [init] at hx
      obtain ⟨k, _, rfl⟩ := hx
      simp [part, part1, regConn]
    exact ⟨[], by rw [this]; simp [handled, init, sends], fun h => absurd rfl h⟩
  · intro l e ih s h
    obtain ⟨t, ht, hs⟩ := run_snoc h
    obtain ⟨L, hp, hL⟩ := ih ht
    have hinv := inv_run (inv_init n) l ht
    have hdead : ∀ k, t.dead k = true → s.dead k = true := by
      intro k hk; rw [dead_step hinv e hs, hk]; rfl
    rw [newOf_eq ht]
    have heff := eff_step hinv (err_run l ht) e hs hi hj hij
    generalize newOf t i j e = w at heff
    cases heff with
    | same e1 e2 => rw [e1, e2]; exact ⟨L, by simpa using hp, fun h => hdead j (hL h)⟩
    | put A P B m e1 e2 e3 _ _ =>
      rw [e1, e3]
      refine ⟨L, ?_, fun h => hdead j (hL h)⟩
      rw [e2] at hp
      refine List.Perm.trans ?_ (hp.append_right [m])
      rw [List.perm_iff_count]; intro a
      simp only [List.count_append]; omega
    | lost m e1 e2 hd =>
      rw [e1, e2]
      refine ⟨L ++ [m], ?_, fun _ => hdead j hd⟩
      rw [← List.append_assoc]; exact hp.append_right [m]
    | got A P B m e1 e2 e3 _ =>
      rw [e1, e3]
      refine ⟨L, ?_, fun h => hdead j (hL h)⟩
      rw [e2] at hp
      rw [List.append_nil]
      refine List.Perm.trans ?_ hp
      rw [List.perm_iff_count]; intro a
      simp only [List.count_append, List.count_cons, List.count_nil]; omega

/-- Same, in order, if there is one connection for two processes. -/
theorem order_run {n : Nat} {i j : Nat} (hi : i < n) (hj : j < n) (hij : i ≠ j) (l : List Ev) :
    ∀ {s : St}, run n (init n) l = .ok s → Single s →
      ∃ L, handled s i j ++ flight s i j ++ L = sends l i j ∧ (L ≠ [] → s.dead j = true) := by
  refine snoc_ind (P := fun l => ∀ {s : St}, run n (init n) l = .ok s → Single s →
      ∃ L, handled s i j ++ flight s i j ++ L = sends l i j ∧ (L ≠ [] → s.dead j = true)) ?_ ?_ l
  · intro s h _
    simp only [run] at h; injection h with h; rw [← h]
    have : flight (init n) i j = [] := by
      simp only [flight, List.flatMap_eq_nil_iff]
      intro x hx
      simp [init] at hx
      obtain ⟨k, _, rfl⟩ := hx
      simp [part, part1, regConn]
    exact ⟨[], by rw [this]; simp [handled, init, sends], fun h => absurd rfl h⟩
  · intro l e ih s h hsing
    obtain ⟨t, ht, hs⟩ := run_snoc h
    have hinv := inv_run (inv_init n) l ht
    obtain ⟨L, hp, hL⟩ := ih ht ((ext_step hinv e hs).single hsing)
    have hdead : ∀ k, t.dead k = true → s.dead k = true := by
      intro k hk; rw [dead_step hinv e hs, hk]; rfl
    rw [newOf_eq ht]
    have heff := eff_step hinv (err_run l ht) e hs hi hj hij
    generalize newOf t i j e = w at heff
    cases heff with
    | same e1 e2 => rw [e1, e2]; exact ⟨L, by simpa using hp, fun h => hdead j (hL h)⟩
    | put A P B m e1 e2 e3 e4 hd =>
      obtain ⟨rfl, rfl⟩ := e4 hsing
      have : L = [] := by
        cases L with
        | nil => rfl
        | cons a L => have := hL (by simp); rw [hd] at this; cases this
      subst this
      rw [e1, e3]
      exact ⟨[], by rw [e2] at hp; simp at hp ⊢; rw [← hp]; simp, fun h => absurd rfl h⟩
    | lost m e1 e2 hd =>
      rw [e1, e2]
      exact ⟨L ++ [m], by rw [← List.append_assoc, hp], fun _ => hdead j hd⟩
    | got A P B m e1 e2 e3 e4 =>
      obtain ⟨rfl, rfl⟩ := e4 hsing
      rw [e1, e3]
      refine ⟨L, ?_, fun h => hdead j (hL h)⟩
      rw [e2] at hp
      simp at hp ⊢; exact hp

/-! ### Entries of the table if there is one connection for two processes -/

/-- Connections with known sender which are not closed are those used for sending. -/
def Cur (s : St) : Prop :=
  ∀ (c : Nat) (x : Conn) (b : Bool), s.conns[c]? = some x → x.lid b ≠ none → x.op b = true →
    s.fd (x.own b) (x.own (!b)) = some (c, b)

theorem same_end {s : St} (hs : Single s) {c c' : Nat} {x y : Conn} {b b' : Bool} (hx : s.conns[c]? = some x)
    (hy : s.conns[c']? = some y) (ne : x.own b ≠ x.own (!b)) (e1 : x.own b = y.own b') (e2 : x.own (!b) = y.own (!b')) :
    c = c' ∧ b = b' := by
  have hc : c = c' := by
    refine hs c c' x y hx hy ?_
    cases b <;> cases b' <;> simp at e1 e2 ⊢ <;> simp [e1, e2]
  refine ⟨hc, ?_⟩
  subst hc
  rw [hx] at hy; cases hy
  cases b <;> cases b' <;> simp at e1 e2 ne ⊢
  · exact ne e1
  · exact ne e1

theorem cur_ensure {n : Nat} {s : St} (h : Inv n s) (hc : Cur s) {i j : Nat} (hi : i < n) (hj : j < n) (hij : i ≠ j)
    (di : s.dead i = false) (hsing : Single (ensureConn s i j)) : Cur (ensureConn s i j) := by
  have h1 := inv_ensure h hi hj hij di
  unfold ensureConn at hsing h1 ⊢
  cases hf : s.fd i j with
  | some p => simp only []; exact hc
  | none =>
    simp only [hf] at hsing h1 ⊢
    by_cases he : s.err i j = true
    · rw [if_pos he]; exact hc
    rw [if_neg he] at hsing h1 ⊢
    by_cases hd : s.dead j = true
    · rw [if_pos hd]; exact hc
    rw [if_neg hd] at hsing h1 ⊢
    have hnew : (s.conns ++ [newConn i j])[s.conns.length]? = some (newConn i j) := by simp
    intro c x b hx hl hop
    simp only [upd2]
    split
    · rename_i hij'
      obtain ⟨ec, eb⟩ := same_end hsing hx hnew (b' := false) ((h1.conn hx).ne' b) (by simpa [newConn] using hij'.1) (by simpa [newConn] using hij'.2)
      rw [ec, eb]
    · rename_i hne
      simp only [] at hx
      rw [List.getElem?_append] at hx
      split at hx
      · exact hc c x b hx hl hop
      · exfalso
        have := lt_of_get hx
        simp at this
        have e : c - s.conns.length = 0 := by omega
        rw [e] at hx; simp at hx; subst hx
        cases b
        · exact hne ⟨rfl, rfl⟩
        · simp [newConn] at hl

theorem cur_write {n : Nat} {s : St} (h : Inv n s) (hc : Cur s) (i j : Nat) (it : Item) : Cur (write s i j it) := by
  unfold write
  cases hf : s.fd i j with
  | none => exact hc
  | some p =>
    obtain ⟨c, b⟩ := p
    obtain ⟨x, hx, h1, h2, h3, h4⟩ := h.fdok hf
    simp only [hx]
    split
    · intro c' y b' hy hl hop
      rcases get_set hx hy with ⟨rfl, rfl⟩ | ⟨_, hy⟩
      · exact hc c' x b' hx hl hop
      · exact hc c' y b' hy hl hop
    · exact hc

theorem cur_step {n : Nat} {s s' : St} (h : Inv n s) (hc : Cur s) (e : Ev) (hs : step n s e = .ok s')
    (hsing : Single s') : Cur s' := by
  have hinv := inv_step h e hs
  cases e with
  | send a b m =>
    simp only [step] at hs
    split at hs
    · injection hs with hs; exact hs ▸ hc
    · rename_i hcn
      injection hs with hs
      have hc1 : s.dead a ≠ true := fun e => hcn (.inl e)
      have hc2 : a ≠ b := fun e => hcn (.inr (.inl e))
      have hc3 : ¬ n ≤ a := fun e => hcn (.inr (.inr (.inl e)))
      have hc4 : ¬ n ≤ b := fun e => hcn (.inr (.inr (.inr e)))
      rw [← hs] at hsing ⊢
      unfold send at hsing ⊢
      simp only [] at hsing ⊢
      have hs1 : Single (ensureConn s a b) := by
        split at hsing
        · exact hsing
        · exact (ext_write _ a b _).single hsing
      have k := cur_ensure h hc (by omega) (by omega) hc2 (by simpa using hc1) hs1
      split
      · exact k
      · exact cur_write (inv_ensure h (by omega) (by omega) hc2 (by simpa using hc1)) k a b _
  | accept c =>
    simp only [step] at hs; injection hs with hs; rw [← hs]; unfold accept
    cases hx : s.conns[c]? with
    | none => exact hc
    | some x =>
      simp only []
      split
      · intro c' y b' hy hl hop
        rcases get_set hx hy with ⟨rfl, rfl⟩ | ⟨_, hy⟩
        · exact hc c' x b' hx hl hop
        · exact hc c' y b' hy hl hop
      · exact hc
  | read c b =>
    have r := read_res h c b
    rw [show read n s c b = .ok s' from hs] at r
    cases r with
    | same => exact hc
    | myid x r hx eb hq pr hl hop hacc =>
      intro c' y b' hy hl' hop'
      have hx' := get_set_same { x with q := upd x.q true r, lid := upd x.lid true (some (x.own false)) } hx
      simp only [upd2]
      split
      · rename_i hij
        obtain ⟨ec, eb⟩ := same_end hsing hy hx' (b' := true) ((hinv.conn hy).ne' b') hij.1 (by simpa using hij.2)
        rw [ec, eb]
      · rename_i hne
        rcases get_set hx hy with ⟨rfl, rfl⟩ | ⟨_, hy⟩
        · cases b'
          · exact hc c' x false hx (by simpa [upd] using hl') hop'
          · exact absurd ⟨rfl, rfl⟩ hne
        · exact hc c' y b' hy hl' hop'
    | msg x m r hx hq hk hop =>
      intro c' y b' hy hl' hop'
      rcases get_set hx hy with ⟨rfl, rfl⟩ | ⟨_, hy⟩
      · exact hc c' x b' hx hl' hop'
      · exact hc c' y b' hy hl' hop'
    | close x hx hq hop hcl hk hf =>
      intro c' y b' hy hl' hop'
      have hx' := get_set_same { x with op := upd x.op b false } hx
      simp only [upd2]
      split
      · rename_i hij
        obtain ⟨ec, eb⟩ := same_end hsing hy hx' (b' := b) ((hinv.conn hy).ne' b') hij.1 (by simpa using hij.2)
        subst ec; subst eb
        simp only [] at hy
        rw [hx'] at hy; cases hy
        simp at hop'
      · rename_i hne
        rcases get_set hx hy with ⟨rfl, rfl⟩ | ⟨_, hy⟩
        · by_cases ebb : b' = b
          · subst ebb; simp at hop'
          · simp only [upd_other _ _ ebb] at hop'
            exact hc c' x b' hx hl' hop'
        · exact hc c' y b' hy hl' hop'
  | exit i =>
    simp only [step] at hs; injection hs with hs; rw [← hs]
    intro c y b hy hl hop
    simp only [exitOf] at hy
    rw [List.getElem?_map] at hy
    cases hx : s.conns[c]? with
    | none => simp [hx] at hy
    | some x =>
      simp [hx] at hy; subst hy
      simp only [closeOf] at hop
      split at hop
      · cases hop
      · exact hc c x b hx hl hop

theorem cur_init (n : Nat) : Cur (init n) := by
  intro c x b hx _ _
  have hl := lt_of_get hx
  simp [init] at hl
  simp [init, hl] at hx
  subst hx
  have : c + 1 < n ∧ 0 < n := by omega
  cases b <;> simp [init, regConn, this]

theorem cur_run {n : Nat} (l : List Ev) : ∀ {s : St}, run n (init n) l = .ok s → Single s → Cur s := by
  refine snoc_ind (P := fun l => ∀ {s : St}, run n (init n) l = .ok s → Single s → Cur s) ?_ ?_ l
  · intro s h _; simp only [run] at h; injection h with h; rw [← h]; exact cur_init n
  · intro l e ih s h hsing
    obtain ⟨t, ht, hs⟩ := run_snoc h
    have hinv := inv_run (inv_init n) l ht
    exact cur_step hinv (ih ht ((ext_step hinv e hs).single hsing)) e hs hsing

/-- Only an end of input makes a run fail. -/
theorem step_fault {n : Nat} {s : St} (h : Inv n s) {e : Ev} {f : Fault} (hs : step n s e = .error f) :
    ∃ c b x, e = .read c b ∧ f = .closed ∧ s.conns[c]? = some x ∧ x.op b = true ∧ x.op (!b) = false ∧
      x.lid b = some (x.own (!b)) ∧ s.fd (x.own b) (x.own (!b)) ≠ some (c, b) := by
  cases e with
  | send a b m => simp only [step] at hs; split at hs <;> cases hs
  | accept c => cases hs
  | exit i => cases hs
  | read c b =>
    have r := read_res h c b
    rw [show read n s c b = .error f from hs] at r
    cases r with
    | fault x hx hq hop hcl hk hf => exact ⟨c, b, x, rfl, rfl, hx, hop, hcl, hk, hf⟩

theorem run_fault {n : Nat} {s : St} {l : List Ev} {f : Fault} (hr : run n s l = .error f) :
    ∃ l1 e l2 t, l = l1 ++ e :: l2 ∧ run n s l1 = .ok t ∧ step n t e = .error f := by
  induction l generalizing s with
  | nil => cases hr
  | cons e t ih =>
    simp only [run] at hr
    cases hs : step n s e with
    | error g => rw [hs] at hr; injection hr with hr; subst hr; exact ⟨[], e, t, s, rfl, rfl, hs⟩
    | ok s1 =>
      rw [hs] at hr
      obtain ⟨l1, e', l2, u, e1, e2, e3⟩ := ih hr
      exact ⟨e :: l1, e', l2, u, by rw [e1]; rfl, by simp only [run, hs]; exact e2, e3⟩

end Laik.Co
