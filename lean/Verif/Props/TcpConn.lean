import Verif.Model.TcpConnRun
import Mathlib.Data.List.Perm.Subperm

/-!
# C70: messages over connections which are opened when needed
-/

namespace Laik.Co

/-- **C70**: In all runs, with ends of processes at any time, each message is handled at
most as often as it was sent, by the process it was sent to, and as a message of the
process which sent it. -/
theorem C70_handled {n : Nat} {l : List Ev} {s : St} (h : run n (init n) l = .ok s) {i j : Nat} (hi : i < n) (hj : j < n)
    (hij : i ≠ j) : (handled s i j).Subperm (sends l i j) := by
  obtain ⟨L, hp, _⟩ := acc_run hi hj hij l h
  refine List.Subperm.trans ?_ hp.subperm
  rw [List.append_assoc]
  exact (List.sublist_append_left _ _).subperm

/-- What is still to be handled is on the way, as long as the receiver has not ended:
nothing is lost or ignored for unknown sender. -/
theorem C70_nothing_lost {n : Nat} {l : List Ev} {s : St} (h : run n (init n) l = .ok s) {i j : Nat} (hi : i < n)
    (hj : j < n) (hij : i ≠ j) (hx : Ev.exit j ∉ l) (he : ∀ (c : Nat) (x : Conn) (b : Bool), s.conns[c]? = some x → x.q b = []) :
    (handled s i j).Perm (sends l i j) := by
  obtain ⟨L, hp, hL⟩ := acc_run hi hj hij l h
  have hd : s.dead j = false := by
    rw [dead_run (inv_init n) l h]; simp [init, hx]
  have : L = [] := by
    cases L with
    | nil => rfl
    | cons a L => have := hL (by simp); rw [hd] at this; cases this
  subst this
  have hf : flight s i j = [] := by
    simp only [flight, List.flatMap_eq_nil_iff]
    intro x hx
    obtain ⟨c, hc, e⟩ := List.getElem_of_mem hx
    have hget : s.conns[c]? = some x := by rw [List.getElem?_eq_getElem hc, e]
    simp [part, part1, he c x false hget, he c x true hget]
  simpa [hf] using hp

/-- Work left. -/
def work (s : St) : Nat := (s.conns.map (fun x => (x.q false).length + (x.q true).length)).sum

theorem work_set (s s' : St) {c : Nat} {x y : Conn} (h : s.conns[c]? = some x) (e : s'.conns = s.conns.set c y)
    (hq : (y.q false).length + (y.q true).length < (x.q false).length + (x.q true).length) : work s' < work s := by
  obtain ⟨l1, l2, e1, _, f⟩ := split_at h
  simp only [work, e, f y]
  rw [e1]
  simp
  omega

theorem upd_len {x : Conn} {b : Bool} {a : Item} {r : List Item} (h : x.q b = a :: r) :
    (upd x.q b r false).length + (upd x.q b r true).length < (x.q false).length + (x.q true).length := by
  cases b
  · simp [upd, h]
  · simp [upd, h]

theorem drain {n : Nat} : ∀ (w : Nat) {s : St}, Inv n s → (∀ k, s.dead k = false) → work s ≤ w →
    ∃ l s', run n s l = .ok s' ∧ (∀ e ∈ l, ∃ c b, e = .accept c ∨ e = .read c b) ∧
      ∀ (c : Nat) (x : Conn) (b : Bool), s'.conns[c]? = some x → x.q b = [] := by
  intro w
  induction w with
  | zero =>
    intro s h hd hw
    refine ⟨[], s, rfl, by simp, ?_⟩
    intro c x b hx
    obtain ⟨l1, l2, e1, _, _⟩ := split_at hx
    simp only [work, e1] at hw
    simp at hw
    cases b
    · exact hw.2.1.1
    · exact hw.2.1.2
  | succ w ih =>
    intro s h hd hw
    by_cases hall : ∀ (c : Nat) (x : Conn) (b : Bool), s.conns[c]? = some x → x.q b = []
    · exact ⟨[], s, rfl, by simp, hall⟩
    · have : ∃ (c : Nat) (x : Conn) (b : Bool), s.conns[c]? = some x ∧ x.q b ≠ [] := by
        apply Classical.byContradiction
        intro hno
        exact hall (fun c x b hx => Classical.byContradiction fun hq => hno ⟨c, x, b, hx, hq⟩)
      obtain ⟨c, x, b, hx, hq⟩ := this
      have hop : ∀ b, x.op b = true := by
        intro b
        cases ho : x.op b with
        | true => rfl
        | false => rcases (h.conn hx).shut b ho with d | d <;> rw [hd] at d <;> cases d
      have ea : accept s c = { s with conns := s.conns.set c { x with acc := true } } := by
        unfold accept; simp only [hx]; rw [if_pos (hop true)]
      have h1 := inv_accept h c
      have hx1 : (accept s c).conns[c]? = some { x with acc := true } := by rw [ea]; exact get_set_same _ hx
      have w1 : ∀ y : Conn, (y.q false).length + (y.q true).length < (x.q false).length + (x.q true).length →
          ∀ s' : St, s'.conns = (accept s c).conns.set c y → work s' < work s := by
        intro y hy s' e
        refine work_set s s' hx (y := y) ?_ hy
        rw [e, ea]; simp
      have hr := read_res h1 c b
      obtain ⟨s2, hs2, hw2⟩ : ∃ s2, read n (accept s c) c b = .ok s2 ∧ work s2 < work s := by
        unfold read
        simp only [hx1]
        rw [if_pos ⟨hop b, by simp⟩]
        match hq' : x.q b with
        | [] => exact absurd hq' hq
        | .myid i :: r =>
          obtain ⟨rfl, rfl, hl, pr, e⟩ := gotMyid_eq h1 hx1 hq'
          simp only [] at e ⊢
          exact ⟨_, e, w1 _ (upd_len hq') _ rfl⟩
        | .msg m :: r =>
          simp only [gotCmd]
          cases hl : x.lid b with
          | none => exact ⟨_, rfl, w1 _ (upd_len hq') _ rfl⟩
          | some k => exact ⟨_, rfl, w1 _ (upd_len hq') _ rfl⟩
      have hi2 := inv_read h1 c b hs2
      have hd2 : ∀ k, s2.dead k = false := by
        intro k
        rw [dead_step h1 (.read c b) hs2, ea]
        simp [hd]
      obtain ⟨l, s', hl, ho, hf⟩ := ih hi2 hd2 (by omega)
      refine ⟨.accept c :: .read c b :: l, s', ?_, ?_, hf⟩
      · simp only [run, step, hs2, hl]
      · intro e he
        simp only [List.mem_cons] at he
        rcases he with rfl | rfl | he
        · exact ⟨c, b, .inl rfl⟩
        · exact ⟨c, b, .inr rfl⟩
        · exact ho e he

theorem sends_quiet (l l' : List Ev) (h : ∀ e ∈ l', ∃ c b, e = Ev.accept c ∨ e = Ev.read c b) (i j : Nat) :
    sends (l ++ l') i j = sends l i j := by
  have h0 : ∀ l', (∀ e ∈ l', ∃ c b, e = Ev.accept c ∨ e = Ev.read c b) → sends l' i j = [] := by
    intro l' h
    induction l' with
    | nil => rfl
    | cons e t ih =>
      obtain ⟨c, b, rfl | rfl⟩ := h e (by simp)
      · simp only [sends]; exact ih (fun e he => h e (by simp [he]))
      · simp only [sends]; exact ih (fun e he => h e (by simp [he]))
  induction l with
  | nil => simpa [sends] using h0 l' h
  | cons e t ih => cases e <;> simp [sends, ih]

/-- **C70**: As long as no process has ended no run fails, and from each state
accepting connections and handling input leads to a state where all messages were
handled. -/
theorem C70_all_handled {n : Nat} {l : List Ev} (hx : ∀ k, Ev.exit k ∉ l) :
    ∃ s l' s', run n (init n) l = .ok s ∧ run n s l' = .ok s' ∧
      (∀ e ∈ l', ∃ c b, e = .accept c ∨ e = .read c b) ∧
      ∀ i j, i < n → j < n → i ≠ j → (handled s' i j).Perm (sends l i j) := by
  cases hr : run n (init n) l with
  | error f =>
    exfalso
    obtain ⟨l1, e, l2, t, e1, e2, e3⟩ := run_fault hr
    have hinv := inv_run (inv_init n) l1 e2
    obtain ⟨c, b, x, _, _, hc, _, hcl, _⟩ := step_fault hinv e3
    have hdead : ∀ k, t.dead k = false := by
      intro k
      rw [dead_run (inv_init n) l1 e2]
      have : Ev.exit k ∉ l1 := fun hm => hx k (by rw [e1]; simp [hm])
      simp [init, this]
    rcases (hinv.conn hc).shut (!b) hcl with d | d <;> rw [hdead] at d <;> cases d
  | ok s =>
    have hinv := inv_run (inv_init n) l hr
    have hdead : ∀ k, s.dead k = false := by
      intro k; rw [dead_run (inv_init n) l hr]; simp [init, hx k]
    obtain ⟨l', s', h1, h2, h3⟩ := drain (work s) hinv hdead (Nat.le_refl _)
    refine ⟨s, l', s', rfl, h1, h2, ?_⟩
    intro i j hi hj hij
    have hrun : run n (init n) (l ++ l') = .ok s' := by rw [run_append, hr]; exact h1
    have := C70_nothing_lost hrun hi hj hij (by
      intro hm
      rcases List.mem_append.1 hm with hm | hm
      · exact hx j hm
      · obtain ⟨c, b, e | e⟩ := h2 _ hm <;> cases e) h3
    rwa [sends_quiet l l' h2] at this

/-- Messages from `i` to `j` are handled in order of sending, if there was at most one
connection between two processes.  The full statement has no condition: false, see
`C70_reordered`. -/
theorem C70_in_order_partial {n : Nat} {l : List Ev} {s : St} (h : run n (init n) l = .ok s) (hs : Single s) {i j : Nat}
    (hi : i < n) (hj : j < n) (hij : i ≠ j) : handled s i j <+: sends l i j := by
  obtain ⟨L, hp, _⟩ := order_run hi hj hij l h hs
  exact ⟨flight s i j ++ L, by rw [← hp, List.append_assoc]⟩

/-- A run fails only at a connection closed by the other process, when there have been
two connections between two processes.  The full statement is that no run fails: false,
see `C70_exit_aborts`. -/
theorem C70_no_fault_partial {n : Nat} {l : List Ev} {f : Fault} (h : run n (init n) l = .error f) :
    ∃ l1 e l2 t, l = l1 ++ e :: l2 ∧ run n (init n) l1 = .ok t ∧ step n t e = .error f ∧ ¬ Single t ∧
      (∃ k, Ev.exit k ∈ l1) ∧ f = .closed := by
  obtain ⟨l1, e, l2, t, e1, e2, e3⟩ := run_fault h
  have hinv := inv_run (inv_init n) l1 e2
  obtain ⟨c, b, x, _, hf, hc, hop, hcl, hl, hne⟩ := step_fault hinv e3
  refine ⟨l1, e, l2, t, e1, e2, e3, ?_, ?_, hf⟩
  · intro hs
    exact hne (cur_run l1 e2 hs c x b hc (by rw [hl]; nofun) hop)
  · have key : ∀ k, t.dead k = true → Ev.exit k ∈ l1 := by
      intro k hk
      rw [dead_run (inv_init n) l1 e2] at hk
      simpa [init] using hk
    rcases (hinv.conn hc).shut (!b) hcl with d | d
    · exact ⟨_, key _ d⟩
    · exact ⟨_, key _ d⟩

/-- There are never more than two connections between two processes: of three, two are
the same. -/
theorem C70_at_most_two {n : Nat} {l : List Ev} {s : St} (h : run n (init n) l = .ok s) {i j : Nat} {c : Fin 3 → Nat}
    {x : Fin 3 → Conn} (hx : ∀ k, s.conns[c k]? = some (x k))
    (ho : ∀ k, ((x k).own false = i ∧ (x k).own true = j) ∨ ((x k).own false = j ∧ (x k).own true = i)) :
    c 0 = c 1 ∨ c 0 = c 2 ∨ c 1 = c 2 := by
  have u := inv_run (inv_init n) l h
  have eq : ∀ a b, (x a).own false = (x b).own false → (x a).own true = (x b).own true → c a = c b :=
    fun a b e1 e2 => u.uniq (hx a) (hx b) e1 e2
  rcases ho 0 with ⟨a1, a2⟩ | ⟨a1, a2⟩ <;> rcases ho 1 with ⟨b1, b2⟩ | ⟨b1, b2⟩ <;> rcases ho 2 with ⟨d1, d2⟩ | ⟨d1, d2⟩
  · exact .inl (eq 0 1 (a1.trans b1.symm) (a2.trans b2.symm))
  · exact .inl (eq 0 1 (a1.trans b1.symm) (a2.trans b2.symm))
  · exact .inr (.inl (eq 0 2 (a1.trans d1.symm) (a2.trans d2.symm)))
  · exact .inr (.inr (eq 1 2 (b1.trans d1.symm) (b2.trans d2.symm)))
  · exact .inr (.inr (eq 1 2 (b1.trans d1.symm) (b2.trans d2.symm)))
  · exact .inr (.inl (eq 0 2 (a1.trans d1.symm) (a2.trans d2.symm)))
  · exact .inl (eq 0 1 (a1.trans b1.symm) (a2.trans b2.symm))
  · exact .inl (eq 0 1 (a1.trans b1.symm) (a2.trans b2.symm))

/-! ### Two connections between two processes -/

/-- End `b` of connection `c` belongs to `i`, which knows that `j` is at the other end. -/
def KnownEnd (s : St) (i j c : Nat) (b : Bool) (x : Conn) : Prop :=
  s.conns[c]? = some x ∧ x.own b = i ∧ x.own (!b) = j ∧ x.lid b ≠ none

/-- One of two connections is open at `i` and cannot be closed without failure. -/
def Bad (s : St) (i j c1 c2 : Nat) (b1 b2 : Bool) : Prop :=
  ∃ x1 x2, KnownEnd s i j c1 b1 x1 ∧ KnownEnd s i j c2 b2 x2 ∧
    ((x1.op b1 = true ∧ x2.op b2 = true) ∨ (x1.op b1 = true ∧ s.fd i j ≠ some (c1, b1)) ∨
     (x2.op b2 = true ∧ s.fd i j ≠ some (c2, b2)))

/-- What each event does with a known end at a process which does not end. -/
theorem known_step {n : Nat} {s s' : St} (h : Inv n s) (e : Ev) (hs : step n s e = .ok s') {i j c : Nat} {b : Bool}
    {x : Conn} (hk : KnownEnd s i j c b x) (hi : s'.dead i = false) :
    ∃ y, KnownEnd s' i j c b y ∧ (s'.fd i j = some (c, b) → s.fd i j = some (c, b)) ∧
      (x.op b = true → y.op b = true ∨ (s.fd i j = some (c, b) ∧ s'.fd i j = none)) := by
  obtain ⟨hx, o1, o2, o3⟩ := hk
  have setq : ∀ {c' : Nat} {z w : Conn} {t : St}, s.conns[c']? = some z → t.conns = s.conns.set c' w → w.own = z.own →
      (z.lid b ≠ none → w.lid b ≠ none) → w.op b = z.op b →
      ∃ y, KnownEnd t i j c b y ∧ y.op b = x.op b := by
    intro c' z w t hz et e1 e2 e3
    by_cases ec : c = c'
    · subst ec; rw [hx] at hz; cases hz
      exact ⟨w, ⟨by rw [et]; exact get_set_same w hx, by rw [e1]; exact o1, by rw [e1]; exact o2, e2 o3⟩, e3⟩
    · exact ⟨x, ⟨by rw [et, get_set_ne w ec]; exact hx, o1, o2, o3⟩, rfl⟩
  have same : ∀ {t : St}, t.fd = s.fd → (∃ y, KnownEnd t i j c b y ∧ y.op b = x.op b) →
    ∃ y, KnownEnd t i j c b y ∧ (t.fd i j = some (c, b) → s.fd i j = some (c, b)) ∧
      (x.op b = true → y.op b = true ∨ (s.fd i j = some (c, b) ∧ t.fd i j = none)) := by
    intro t ef ⟨y, hy, eo⟩
    exact ⟨y, hy, by rw [ef]; exact id, fun ho => .inl (by rw [eo]; exact ho)⟩
  cases e with
  | send a a' m =>
    simp only [step] at hs
    split at hs
    · injection hs with hs; rw [← hs]; exact same rfl ⟨x, ⟨hx, o1, o2, o3⟩, rfl⟩
    · injection hs with hs
      rw [← hs]
      have w : ∀ t : St, (∃ y, KnownEnd t i j c b y ∧ y.op b = x.op b) → ∃ y, KnownEnd (write t a a' (.msg m)) i j c b y ∧ y.op b = x.op b := by
        intro t ⟨y, hy, eo⟩
        unfold write
        split
        · exact ⟨y, hy, eo⟩
        · rename_i c' b' _
          split
          · exact ⟨y, hy, eo⟩
          · rename_i z hz
            split
            · by_cases ec : c = c'
              · subst ec
                obtain ⟨y1, y2, y3, y4⟩ := hy
                rw [y1] at hz; cases hz
                exact ⟨_, ⟨get_set_same _ y1, y2, y3, y4⟩, eo⟩
              · exact ⟨y, ⟨by simp only [get_set_ne _ ec]; exact hy.1, hy.2⟩, eo⟩
            · exact ⟨y, hy, eo⟩
      have fw : ∀ t : St, (write t a a' (.msg m)).fd = t.fd := by
        intro t; unfold write
        split
        · rfl
        · split
          · rfl
          · split <;> rfl
      have en : (∃ y, KnownEnd (ensureConn s a a') i j c b y ∧ y.op b = x.op b) ∧
          ((ensureConn s a a').fd i j = s.fd i j ∨ (s.fd i j = none ∧ ∃ c', (ensureConn s a a').fd i j = some (c', false) ∧ c' ≠ c)) := by
        unfold ensureConn
        split
        · exact ⟨⟨x, ⟨hx, o1, o2, o3⟩, rfl⟩, .inl rfl⟩
        · rename_i hf
          split
          · exact ⟨⟨x, ⟨hx, o1, o2, o3⟩, rfl⟩, .inl rfl⟩
          · split
            · exact ⟨⟨x, ⟨hx, o1, o2, o3⟩, rfl⟩, .inl rfl⟩
            · refine ⟨⟨x, ⟨?_, o1, o2, o3⟩, rfl⟩, ?_⟩
              · simp only []; rw [List.getElem?_append_left (lt_of_get hx)]; exact hx
              · simp only [upd2]
                split
                · rename_i hij
                  right
                  refine ⟨by rw [hij.1, hij.2]; exact hf, _, rfl, ?_⟩
                  have := lt_of_get hx; omega
                · exact .inl rfl
      have all : ∀ t : St, (t.fd = (ensureConn s a a').fd) → (∃ y, KnownEnd t i j c b y ∧ y.op b = x.op b) →
          ∃ y, KnownEnd t i j c b y ∧ (t.fd i j = some (c, b) → s.fd i j = some (c, b)) ∧
            (x.op b = true → y.op b = true ∨ (s.fd i j = some (c, b) ∧ t.fd i j = none)) := by
        intro t et ⟨y, hy, eo⟩
        rw [et]
        refine ⟨y, hy, ?_, fun ho => .inl (by rw [eo]; exact ho)⟩
        · rcases en.2 with e | ⟨_, c', e, ne⟩
          · rw [e]; exact id
          · rw [e]; intro hh; injection hh with hh; injection hh with h1 _; exact absurd h1 ne
      unfold send; simp only []
      split
      · exact all _ rfl en.1
      · exact all _ (fw _) (w _ en.1)
  | accept c' =>
    simp only [step] at hs; injection hs with hs; rw [← hs]
    unfold accept
    cases hz : s.conns[c']? with
    | none => simp only []; exact same rfl ⟨x, ⟨hx, o1, o2, o3⟩, rfl⟩
    | some z =>
      simp only []
      split
      · exact same rfl (setq hz rfl rfl id rfl)
      · exact same rfl ⟨x, ⟨hx, o1, o2, o3⟩, rfl⟩
  | read c' b' =>
    have r := read_res h c' b'
    rw [show read n s c' b' = .ok s' from hs] at r
    cases r with
    | same => exact same rfl ⟨x, ⟨hx, o1, o2, o3⟩, rfl⟩
    | msg z m r hz hq hk hop => exact same rfl (setq hz rfl rfl id rfl)
    | myid z r hz eb hq pr hl hop hacc =>
      obtain ⟨y, hy, eo⟩ := setq (w := { z with q := upd z.q true r, lid := upd z.lid true (some (z.own false)) })
        (t := { s with
          conns := s.conns.set c' { z with q := upd z.q true r, lid := upd z.lid true (some (z.own false)) }
          fd := upd2 s.fd (z.own true) (z.own false) (some (c', true)) }) hz rfl rfl (by
          intro hn; simp only [upd]; split
          · nofun
          · exact hn) rfl
      refine ⟨y, hy, ?_, fun ho => .inl (by rw [eo]; exact ho)⟩
      · simp only [upd2]
        split
        · rename_i hij
          intro hh; injection hh with hh; injection hh with h1 h2
          subst h1; subst h2
          rw [hx] at hz; cases hz
          exact absurd hl o3
        · exact id
    | close z hz hq hop hcl hk hf =>
      by_cases ec : c = c'
      · subst ec
        rw [hx] at hz; cases hz
        refine ⟨_, ⟨get_set_same _ hx, o1, o2, o3⟩, ?_, ?_⟩
        · simp only [upd2]
          split
          · nofun
          · exact id
        · intro ho
          by_cases eb : b = b'
          · subst eb
            right
            rw [← o1, ← o2]
            exact ⟨hf, by simp⟩
          · left; simp only [upd_other _ _ eb]; exact ho
      · refine ⟨x, ⟨by simp only [get_set_ne _ ec]; exact hx, o1, o2, o3⟩, ?_, fun ho => .inl ho⟩
        · simp only [upd2]
          split
          · nofun
          · exact id
  | exit k =>
    simp only [step] at hs; injection hs with hs
    rw [← hs] at hi ⊢
    have hne : i ≠ k := by
      intro e; subst e; simp [exitOf] at hi
    refine same rfl ?_
    refine ⟨closeOf k x, ⟨by simp [exitOf, hx], o1, o2, o3⟩, ?_⟩
    simp only [closeOf]; rw [if_neg (by rw [o1]; exact hne)]

theorem bad_step {n : Nat} {s s' : St} (h : Inv n s) (e : Ev) (hs : step n s e = .ok s') {i j c1 c2 : Nat} {b1 b2 : Bool}
    (hne : c1 ≠ c2) (hb : Bad s i j c1 c2 b1 b2) (hi : s'.dead i = false) : Bad s' i j c1 c2 b1 b2 := by
  obtain ⟨x1, x2, k1, k2, hh⟩ := hb
  obtain ⟨y1, l1, f1, g1⟩ := known_step h e hs k1 hi
  obtain ⟨y2, l2, f2, g2⟩ := known_step h e hs k2 hi
  refine ⟨y1, y2, l1, l2, ?_⟩
  rcases hh with ⟨a1, a2⟩ | ⟨a1, a2⟩ | ⟨a1, a2⟩
  · rcases g1 a1 with o1 | ⟨o1, o1'⟩ <;> rcases g2 a2 with o2 | ⟨o2, o2'⟩
    · exact .inl ⟨o1, o2⟩
    · exact .inr (.inl ⟨o1, by rw [o2']; nofun⟩)
    · exact .inr (.inr ⟨o2, by rw [o1']; nofun⟩)
    · rw [o1] at o2; injection o2 with o2; injection o2 with o2 _; exact absurd o2 hne
  · rcases g1 a1 with o1 | ⟨o1, _⟩
    · exact .inr (.inl ⟨o1, fun e => a2 (f1 e)⟩)
    · exact absurd o1 a2
  · rcases g2 a1 with o2 | ⟨o2, _⟩
    · exact .inr (.inr ⟨o2, fun e => a2 (f2 e)⟩)
    · exact absurd o2 a2

/-- Once a process knows two connections with another process, it never gets both
closed: in each run without failure one stays open as long as the process lives. -/
theorem C70_never_closed {n : Nat} {l0 : List Ev} {s : St} (h0 : run n (init n) l0 = .ok s) {i j c1 c2 : Nat} {b1 b2 : Bool}
    {x1 x2 : Conn} (hne : c1 ≠ c2) (k1 : KnownEnd s i j c1 b1 x1) (k2 : KnownEnd s i j c2 b2 x2) (o1 : x1.op b1 = true)
    (o2 : x2.op b2 = true) {l : List Ev} {s' : St} (h : run n s l = .ok s') (hi : s'.dead i = false) :
    ∃ y1 y2, KnownEnd s' i j c1 b1 y1 ∧ KnownEnd s' i j c2 b2 y2 ∧ (y1.op b1 = true ∨ y2.op b2 = true) := by
  have key : ∀ (l : List Ev) {s : St}, Inv n s → Bad s i j c1 c2 b1 b2 → run n s l = .ok s' → Bad s' i j c1 c2 b1 b2 := by
    intro l
    induction l with
    | nil => intro s _ hb hr; simp only [run] at hr; injection hr with hr; exact hr ▸ hb
    | cons e t ih =>
      intro s hs hb hr
      have hr0 := hr
      simp only [run] at hr
      cases hst : step n s e with
      | error f => rw [hst] at hr; cases hr
      | ok s1 =>
        rw [hst] at hr
        have hs1 := inv_step hs e hst
        refine ih hs1 (bad_step hs e hst hne hb ?_) hr
        have := dead_run hs1 t hr i
        cases hd : s1.dead i with
        | false => rfl
        | true => rw [hd, hi] at this; simp at this
  obtain ⟨y1, y2, e1, e2, hh⟩ := key l (inv_run (inv_init n) l0 h0) ⟨x1, x2, k1, k2, .inl ⟨o1, o2⟩⟩ h
  refine ⟨y1, y2, e1, e2, ?_⟩
  rcases hh with hh | hh | hh
  · exact .inl hh.1
  · exact .inl hh.1
  · exact .inr hh.1

/-- Open end with known sender: reading goes on. -/
theorem read_known {n : Nat} {s : St} (h : Inv n s) {i j c : Nat} {b : Bool} {x : Conn} (k : KnownEnd s i j c b x)
    (ho : x.op b = true) (hcl : x.op (!b) = false) :
    (∃ f, read n s c b = .error f) ∨
    ∃ s' y, read n s c b = .ok s' ∧ s'.conns = s.conns.set c y ∧
      (y.q b).length + (if y.op b then 1 else 0) < (x.q b).length + (if x.op b then 1 else 0) := by
  obtain ⟨hx, o1, o2, o3⟩ := k
  have hacc : b = true → x.acc = true := by intro e; subst e; exact (h.conn hx).acc o3
  have pl := (h.conn hx).known b o3
  unfold read
  simp only [hx]
  rw [if_pos ⟨ho, hacc⟩]
  match hq : x.q b with
  | .myid i :: r => exact (hq ▸ pl).not_myid.elim
  | .msg m :: r =>
    right
    simp only [gotCmd]
    cases hl : x.lid b with
    | none => exact absurd hl o3
    | some w => exact ⟨_, _, rfl, rfl, by simp⟩
  | [] =>
    simp only [hcl]
    have hk := end_known h hx hq
    unfold gotEnd
    simp only [hk]
    by_cases hf : s.fd (x.own b) (x.own (!b)) = some (c, b)
    · right
      refine ⟨{ s with conns := s.conns.set c { x with op := upd x.op b false }
                       fd := upd2 s.fd (x.own b) (x.own (!b)) none }, { x with op := upd x.op b false }, ?_, rfl, ?_⟩
      · rw [if_neg (by simp), if_pos hf]
      · simp [hq, ho]
    · left
      exact ⟨.closed, by rw [if_neg (by simp), if_neg hf]⟩

theorem bad_fails {n : Nat} {i j c1 c2 : Nat} {b1 b2 : Bool} (hne : c1 ≠ c2) : ∀ (w : Nat) {s : St}, Inv n s →
    Bad s i j c1 c2 b1 b2 → s.dead i = false → s.dead j = true →
    (∀ x1 x2, s.conns[c1]? = some x1 → s.conns[c2]? = some x2 →
      (x1.q b1).length + (if x1.op b1 then 1 else 0) + ((x2.q b2).length + (if x2.op b2 then 1 else 0)) ≤ w) →
    ∃ l f, (∀ e ∈ l, e = .read c1 b1 ∨ e = .read c2 b2) ∧ run n s l = .error f := by
  intro w
  induction w with
  | zero =>
    intro s h hb _ _ hw
    obtain ⟨x1, x2, k1, k2, hh⟩ := hb
    have := hw x1 x2 k1.1 k2.1
    rcases hh with hh | hh | hh
    · simp [hh.1] at this
    · simp [hh.1] at this
    · simp [hh.1] at this
  | succ w ih =>
    intro s h hb di dj hw
    have hb0 := hb
    obtain ⟨x1, x2, k1, k2, hh⟩ := hb
    have hw' := hw x1 x2 k1.1 k2.1
    have shut1 : x1.op (!b1) = false := (h.conn k1.1).down (!b1) (by rw [k1.2.2.1]; exact dj)
    have shut2 : x2.op (!b2) = false := (h.conn k2.1).down (!b2) (by rw [k2.2.2.1]; exact dj)
    have go : ∀ (e : Ev) (s1 : St), (e = .read c1 b1 ∨ e = .read c2 b2) → step n s e = .ok s1 →
        (∀ y1 y2, s1.conns[c1]? = some y1 → s1.conns[c2]? = some y2 →
          (y1.q b1).length + (if y1.op b1 then 1 else 0) + ((y2.q b2).length + (if y2.op b2 then 1 else 0)) ≤ w) →
        ∃ l f, (∀ e ∈ l, e = .read c1 b1 ∨ e = .read c2 b2) ∧ run n s l = .error f := by
      intro e s1 he hs hw1
      have d : ∀ k, s1.dead k = s.dead k := by
        intro k
        rw [dead_step h e hs]
        rcases he with rfl | rfl <;> simp
      obtain ⟨l, f, hl, hr⟩ := ih (inv_step h e hs) (bad_step h e hs hne hb0 (by rw [d]; exact di)) (by rw [d]; exact di)
        (by rw [d]; exact dj) hw1
      refine ⟨e :: l, f, ?_, by simp only [run, hs]; exact hr⟩
      intro e' he'
      rcases List.mem_cons.1 he' with rfl | he'
      · exact he
      · exact hl e' he'
    have one : x1.op b1 = true → ∃ l f, (∀ e ∈ l, e = .read c1 b1 ∨ e = .read c2 b2) ∧ run n s l = .error f := by
      intro o1
      rcases read_known h k1 o1 shut1 with ⟨f, hf⟩ | ⟨s1, y, hs, hc, hlt⟩
      · exact ⟨[.read c1 b1], f, by simp, by simp only [run, step, hf]⟩
      · refine go (.read c1 b1) s1 (.inl rfl) hs ?_
        intro y1 y2 hy1 hy2
        rw [hc, get_set_same y k1.1] at hy1; cases hy1
        rw [hc, get_set_ne y (fun e => hne e.symm), k2.1] at hy2; cases hy2
        omega
    have two : x2.op b2 = true → ∃ l f, (∀ e ∈ l, e = .read c1 b1 ∨ e = .read c2 b2) ∧ run n s l = .error f := by
      intro o2
      rcases read_known h k2 o2 shut2 with ⟨f, hf⟩ | ⟨s1, y, hs, hc, hlt⟩
      · exact ⟨[.read c2 b2], f, by simp, by simp only [run, step, hf]⟩
      · refine go (.read c2 b2) s1 (.inr rfl) hs ?_
        intro y1 y2 hy1 hy2
        rw [hc, get_set_same y k2.1] at hy2; cases hy2
        rw [hc, get_set_ne y hne, k1.1] at hy1; cases hy1
        omega
    rcases hh with hh | hh | hh
    · exact one hh.1
    · exact one hh.1
    · exact two hh.1

/-- If a process knows two connections with a process which has ended, reading from
these connections always leads to the failed assertion. -/
theorem C70_two_abort {n : Nat} {l0 : List Ev} {s : St} (h0 : run n (init n) l0 = .ok s) {i j c1 c2 : Nat} {b1 b2 : Bool}
    {x1 x2 : Conn} (hne : c1 ≠ c2) (k1 : KnownEnd s i j c1 b1 x1) (k2 : KnownEnd s i j c2 b2 x2) (o1 : x1.op b1 = true)
    (o2 : x2.op b2 = true) (hi : Ev.exit i ∉ l0) (hj : Ev.exit j ∈ l0) :
    ∃ l f, (∀ e ∈ l, e = .read c1 b1 ∨ e = .read c2 b2) ∧ run n s l = .error f := by
  refine bad_fails hne (inv_run (inv_init n) l0 h0) ⟨x1, x2, k1, k2, .inl ⟨o1, o2⟩⟩ ?_ ?_ ?_ (w := (x1.q b1).length + (if x1.op b1 then 1 else 0) + ((x2.q b2).length + (if x2.op b2 then 1 else 0)))
  · rw [dead_run (inv_init n) l0 h0]; simp [init, hi]
  · rw [dead_run (inv_init n) l0 h0]; simp [hj]
  · intro y1 y2 e1 e2
    rw [k1.1] at e1; cases e1
    rw [k2.1] at e2; cases e2
    exact Nat.le_refl _

/-! ### Runs of three processes -/

/-- Result of a run: messages handled by `j` from `i`, or the failure. -/
def result (n : Nat) (l : List Ev) (i j : Nat) : Except Fault (List Nat) :=
  match run n (init n) l with
  | .ok s => .ok (handled s i j)
  | .error f => .error f

/-- Processes 1 and 2 both open a connection for their first message (connections 2 and
3, after 0 and 1 with the master). -/
def cross : List Ev :=
  [.send 1 2 10, .send 2 1 20, .accept 3, .read 3 true, .read 3 true]

/-- The second message of process 1 goes over the other connection, and is handled before
the first. -/
def reordered : List Ev :=
  cross ++ [.send 1 2 11, .read 3 false, .accept 2, .read 2 true, .read 2 true]

/-- **Negation**: messages are not handled in order of sending. -/
theorem C70_reordered : ∃ s, run 3 (init 3) reordered = .ok s ∧ handled s 1 2 = [11, 10] ∧
    sends reordered 1 2 = [10, 11] ∧ ¬ handled s 1 2 <+: sends reordered 1 2 := by
  refine ⟨_, rfl, ?_, ?_, ?_⟩ <;> decide +kernel

/-- All messages handled, then process 2 ends. -/
def ended : List Ev := reordered ++ [.read 3 true, .exit 2]

/-- **Negation**: process 1 is aborted when it sees that process 2 has ended, in
whatever order it looks at the two connections. -/
theorem C70_exit_aborts : (∃ s, run 3 (init 3) ended = .ok s ∧ handled s 1 2 = [11, 10] ∧ handled s 2 1 = [20]) ∧
    result 3 (ended ++ [.read 2 false]) 1 2 = .error .closed ∧
    result 3 (ended ++ [.read 3 true, .read 2 false]) 1 2 = .error .closed := by
  refine ⟨⟨_, rfl, ?_, ?_⟩, ?_, ?_⟩ <;> decide +kernel

/-- Hypotheses of `C70_two_abort` and `C70_never_closed` are met by this run. -/
example : ∃ s x1 x2, run 3 (init 3) ended = .ok s ∧ KnownEnd s 1 2 2 false x1 ∧ KnownEnd s 1 2 3 true x2 ∧
    x1.op false = true ∧ x2.op true = true ∧ Ev.exit 1 ∉ ended ∧ Ev.exit 2 ∈ ended := by
  refine ⟨_, _, _, rfl, ⟨rfl, rfl, rfl, ?_⟩, ⟨rfl, rfl, rfl, ?_⟩, rfl, rfl, ?_, ?_⟩ <;> decide +kernel

/-- A run without ends of processes: messages are still on the way (`C70_all_handled`). -/
example : (∀ k, Ev.exit k ∉ cross) ∧ result 3 cross 1 2 = .ok [] ∧ result 3 cross 2 1 = .ok [20] ∧
    sends cross 1 2 = [10] := by
  refine ⟨fun k h => ?_, by decide +kernel, by decide +kernel, by decide +kernel⟩
  simp [cross] at h

/-- If process 2 waits for the message of process 1 before it answers there is one
connection; messages are handled in order, and the end of process 2 is seen. -/
example : result 3 [.send 1 2 10, .send 1 2 11, .accept 2, .read 2 true, .read 2 true, .send 2 1 20, .read 2 true,
    .read 2 false, .exit 2, .read 2 false] 1 2 = .ok [10, 11] := by decide +kernel

/-- `C70_in_order_partial`, `C70_handled` for this run. -/
example : ∃ s, run 3 (init 3) [.send 1 2 10, .send 1 2 11, .accept 2, .read 2 true, .read 2 true] = .ok s ∧ Single s ∧
    handled s 1 2 = [10] := by
  refine ⟨_, rfl, ?_, by decide +kernel⟩
  intro c c' x y hx hy e
  have hl := lt_of_get hx
  have hl' := lt_of_get hy
  simp [init, step, send, ensureConn, write, accept, read, gotMyid, gotCmd, newConn, regConn, upd2, List.range_succ] at hl hl' hx hy
  match c, c', hl, hl' with
  | 0, 0, _, _ => rfl
  | 1, 1, _, _ => rfl
  | 2, 2, _, _ => rfl
  | 0, 1, _, _ => simp at hx hy; subst hx; subst hy; simp at e
  | 0, 2, _, _ => simp at hx hy; subst hx; subst hy; simp at e
  | 1, 0, _, _ => simp at hx hy; subst hx; subst hy; simp at e
  | 1, 2, _, _ => simp at hx hy; subst hx; subst hy; simp at e
  | 2, 0, _, _ => simp at hx hy; subst hx; subst hy; simp at e
  | 2, 1, _, _ => simp at hx hy; subst hx; subst hy; simp at e

end Laik.Co
