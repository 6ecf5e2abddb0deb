import Verif.Model.MpiAsyncSim
import Verif.Model.MpiProcess
import Verif.Model.MpiAll
/-!
# Memory of sends and receives in prepared programs

Combining and splitting actions keeps the condition needed for asynchronous
communication: no later action changes what is sent, no earlier action uses the
memory into which is received.
-/

namespace Laik.Mp

variable {β ι : Type}

/-! ### Parts of the buffer for combined actions -/

/-- Entry of a copy action for group `(r, k)` with part `z` of the buffer. -/
def EntOK (es : Nat) (l : List (CAct β)) (r : Nat) (k : CKey) (ptr : CAct β → Nat) (z : Nat × Nat) (en : CEntry) : Prop :=
  (∃ b ∈ l, b.same r k = true ∧ en.ptr = ptr b ∧ en.bytes = b.count * es) ∧ z.1 * es ≤ en.offset ∧ en.offset + en.bytes ≤ z.2 * es

/-- An action after combining; `g`: combined groups, `Z`: their parts of the buffer. -/
def Cls (e : CEnv) (l : List (CAct β)) (seen : List (Nat × CKey)) (g : Nat × CKey → Bool) (Z : Nat × CKey → Nat × Nat) (y : Nat × CItem β) : Prop :=
  (∃ a ∈ l, y = (3 * a.round + 1, .act a.body) ∧ ∀ k s d n, a.body = .comm k s d n → (a.round, k) ∉ seen ∧ g (a.round, k) = false) ∨
  (∃ r k, (r, k) ∉ seen ∧ g (r, k) = true ∧ 2 ≤ (l.filter (CAct.same r k)).length ∧
    ((∃ ce, y = (3 * r, .copyTo ce) ∧ e.isIn k = true ∧ ∀ en ∈ ce, EntOK e.elemsize l r k CAct.src (Z (r, k)) en) ∨
     y = (3 * r + 1, .rcomm k ((Z (r, k)).1 * e.elemsize) ((Z (r, k)).2 - (Z (r, k)).1)) ∨
     (∃ ce, y = (3 * r + 2, .copyFrom ce) ∧ e.isOut k = true ∧ ∀ en ∈ ce, EntOK e.elemsize l r k CAct.dst (Z (r, k)) en)))

theorem entries_ok (es : Nat) (ptr : CAct β → Nat) (L : List (CAct β)) (r : Nat) (k : CKey) (g : List (CAct β)) : ∀ off lo hi, (∀ b ∈ g, b ∈ L ∧ b.same r k = true) →
    lo ≤ off → off + sumCount g ≤ hi → ∀ en ∈ entries es ptr off g, EntOK es L r k ptr (lo, hi) en := by
  induction g with
  | nil => intro off lo hi _ _ _ en hen; cases hen
  | cons a g ih =>
    intro off lo hi hg h1 h2 en hen
    have hs : sumCount (a :: g) = a.count + sumCount g := by simp [sumCount]
    rw [hs] at h2
    rcases List.mem_cons.1 hen with rfl | hen
    · refine ⟨⟨a, (hg a List.mem_cons_self).1, (hg a List.mem_cons_self).2, rfl, rfl⟩, Nat.mul_le_mul_right _ h1, ?_⟩
      show off * es + a.count * es ≤ hi * es
      rw [← Nat.add_mul]
      exact Nat.mul_le_mul_right _ (by omega)
    · exact ih (off + a.count) lo hi (fun b hb => hg b (List.mem_cons_of_mem _ hb)) (by omega) (by omega) en hen

theorem Cls.lift {e : CEnv} {l : List (CAct β)} {a : CAct β} {seen seen' : List (Nat × CKey)} {g g' : Nat × CKey → Bool} {Z Z' : Nat × CKey → Nat × Nat} {y : Nat × CItem β}
    (h : Cls e l seen' g Z y) (hs : ∀ rk, rk ∉ seen' → rk ∉ seen ∧ g' rk = g rk ∧ Z' rk = Z rk) : Cls e (a :: l) seen g' Z' y := by
  have ent : ∀ {r k ptr z en}, EntOK e.elemsize l r k ptr z en → EntOK e.elemsize (a :: l) r k ptr z en := by
    rintro r k ptr z en ⟨⟨b, hb, h1⟩, h2⟩
    exact ⟨⟨b, List.mem_cons_of_mem _ hb, h1⟩, h2⟩
  rcases h with ⟨b, hb, rfl, h1⟩ | ⟨r, k, h1, h2, hlen, h3⟩
  · refine Or.inl ⟨b, List.mem_cons_of_mem _ hb, rfl, ?_⟩
    intro k s d n e'
    obtain ⟨i1, i2⟩ := h1 k s d n e'
    obtain ⟨j1, j2, _⟩ := hs _ i1
    exact ⟨j1, j2.trans i2⟩
  · obtain ⟨j1, j2, j3⟩ := hs _ h1
    refine Or.inr ⟨r, k, j1, j2.trans h2, ?_, ?_⟩
    · rw [List.filter_cons]
      split
      · rw [List.length_cons]; omega
      · exact hlen
    · rw [j3]
      rcases h3 with ⟨ce, h4, h5, h6⟩ | h4 | ⟨ce, h4, h5, h6⟩
      · exact Or.inl ⟨ce, h4, h5, fun en hen => ent (h6 en hen)⟩
      · exact Or.inr (Or.inl h4)
      · exact Or.inr (Or.inr ⟨ce, h4, h5, fun en hen => ent (h6 en hen)⟩)

theorem combGo_cls (e : CEnv) (l : List (CAct β)) : ∀ seen off, ∃ g Z, (∀ y ∈ (combGo e seen off l).1, Cls e l seen g Z y) ∧
    (∀ rk, off ≤ (Z rk).1 ∧ (Z rk).1 ≤ (Z rk).2 ∧ (Z rk).2 ≤ (combGo e seen off l).2) ∧
    (∀ rk rk', rk ≠ rk' → (Z rk).2 ≤ (Z rk').1 ∨ (Z rk').2 ≤ (Z rk).1) := by
  induction l with
  | nil =>
    intro seen off
    exact ⟨fun _ => false, fun _ => (off, off), fun y hy => (by simp [combGo] at hy), fun rk => ⟨Nat.le_refl _, Nat.le_refl _, Nat.le_refl _⟩,
      fun rk rk' _ => Or.inl (Nat.le_refl _)⟩
  | cons a l ih =>
    intro seen off
    cases hb : a.body with
    | other op =>
      have e1 : combGo e seen off (a :: l) = ((3 * a.round + 1, .act (.other op)) :: (combGo e seen off l).1, (combGo e seen off l).2) := by
        rw [combGo]; simp only [hb]
      obtain ⟨g, Z, h1, h2, h3⟩ := ih seen off
      rw [e1]
      refine ⟨g, Z, ?_, h2, h3⟩
      intro y hy
      rcases List.mem_cons.1 hy with rfl | hy
      · exact Or.inl ⟨a, List.mem_cons_self, by rw [hb], fun k s d n e' => by rw [hb] at e'; cases e'⟩
      · exact (h1 y hy).lift (fun rk h => ⟨h, rfl, rfl⟩)
    | comm k s d n =>
      by_cases cs : (a.round, k) ∈ seen
      · have e1 : combGo e seen off (a :: l) = combGo e seen off l := by
          rw [combGo]; simp only [hb, if_pos cs]
        obtain ⟨g, Z, h1, h2, h3⟩ := ih seen off
        rw [e1]
        exact ⟨g, Z, fun y hy => (h1 y hy).lift (fun rk h => ⟨h, rfl, rfl⟩), h2, h3⟩
      · have hsame : a.same a.round k = true := by unfold CAct.same; rw [hb]; simp
        by_cases cl : (a :: l.filter (CAct.same a.round k)).length > 1
        · have e1 : combGo e seen off (a :: l) = (emitGroup e a.round k off (a :: l.filter (CAct.same a.round k)) ++
              (combGo e ((a.round, k) :: seen) (off + sumCount (a :: l.filter (CAct.same a.round k))) l).1,
              (combGo e ((a.round, k) :: seen) (off + sumCount (a :: l.filter (CAct.same a.round k))) l).2) := by
            rw [combGo]; simp only [hb, if_neg cs, if_pos cl]
          obtain ⟨g, Z, h1, h2, h3⟩ := ih ((a.round, k) :: seen) (off + sumCount (a :: l.filter (CAct.same a.round k)))
          have hle := combGo_le e l ((a.round, k) :: seen) (off + sumCount (a :: l.filter (CAct.same a.round k)))
          rw [e1]
          generalize hG : a :: l.filter (CAct.same a.round k) = G at *
          have hgr : ∀ b ∈ G, b ∈ a :: l ∧ b.same a.round k = true := by
            intro b hb'
            rw [← hG] at hb'
            rcases List.mem_cons.1 hb' with rfl | hb'
            · exact ⟨List.mem_cons_self, hsame⟩
            · rw [List.mem_filter] at hb'
              exact ⟨List.mem_cons_of_mem _ hb'.1, hb'.2⟩
          refine ⟨fun rk => if rk = (a.round, k) then true else g rk, fun rk => if rk = (a.round, k) then (off, off + sumCount G) else Z rk, ?_, ?_, ?_⟩
          · intro y hy
            rcases List.mem_append.1 hy with hy | hy
            · refine Or.inr ⟨a.round, k, cs, if_pos rfl, ?_, ?_⟩
              · rw [List.filter_cons, if_pos hsame, hG]; exact cl
              · simp only [if_true]
                rw [emitGroup, List.mem_append, List.mem_append] at hy
                rcases hy with (hy | hy) | hy
                · split at hy
                  · rename_i hin
                    rw [List.mem_singleton] at hy
                    exact Or.inl ⟨_, hy, hin, entries_ok _ _ _ _ _ _ _ _ _ hgr (Nat.le_refl _) (Nat.le_refl _)⟩
                  · cases hy
                · rw [List.mem_singleton] at hy
                  refine Or.inr (Or.inl ?_)
                  rw [hy, Nat.add_sub_cancel_left]
                · split at hy
                  · rename_i hin
                    rw [List.mem_singleton] at hy
                    exact Or.inr (Or.inr ⟨_, hy, hin, entries_ok _ _ _ _ _ _ _ _ _ hgr (Nat.le_refl _) (Nat.le_refl _)⟩)
                  · cases hy
            · refine (h1 y hy).lift (fun rk h => ?_)
              rw [List.mem_cons, not_or] at h
              exact ⟨h.2, if_neg h.1, if_neg h.1⟩
          · intro rk
            have := h2 rk
            by_cases c : rk = (a.round, k)
            · simp only [if_pos c]; omega
            · simp only [if_neg c]; omega
          · intro rk rk' hne
            have := h2 rk
            have := h2 rk'
            beta_reduce
            by_cases c : rk = (a.round, k)
            · rw [if_pos c, if_neg (fun c' => hne (c.trans c'.symm))]
              simp only
              omega
            · rw [if_neg c]
              by_cases c' : rk' = (a.round, k)
              · rw [if_pos c']
                simp only
                omega
              · rw [if_neg c']; exact h3 rk rk' hne
        · have e1 : combGo e seen off (a :: l) = ((3 * a.round + 1, .act (.comm k s d n)) ::
              (combGo e ((a.round, k) :: seen) off l).1, (combGo e ((a.round, k) :: seen) off l).2) := by
            rw [combGo]; simp only [hb, if_neg cs, if_neg cl]
          obtain ⟨g, Z, h1, h2, h3⟩ := ih ((a.round, k) :: seen) off
          rw [e1]
          refine ⟨fun rk => if rk = (a.round, k) then false else g rk, Z, ?_, h2, h3⟩
          intro y hy
          rcases List.mem_cons.1 hy with rfl | hy
          · refine Or.inl ⟨a, List.mem_cons_self, by rw [hb], ?_⟩
            intro k' s' d' n' e'
            rw [hb] at e'
            cases e'
            exact ⟨cs, if_pos rfl⟩
          · refine (h1 y hy).lift (fun rk h => ?_)
            rw [List.mem_cons, not_or] at h
            exact ⟨h.2, if_neg h.1, rfl⟩

/-! ### Cells of the combined actions -/

/-- Cells used by an action after combining. -/
inductive CFp (c : PCtx β) (B : Nat) (l : List (CAct β)) (g : Nat × CKey → Bool) (zone : Nat × CKey → Nat → Prop) (y : CAct β) : Prop
  | act (a : CAct β) (ha : a ∈ l) (hr : y.round = 3 * a.round + 1) (hb : y.body = a.body) (hk : ∀ k s d n, a.body = .comm k s d n → g (a.round, k) = false)
  | copyTo (r : Nat) (k : CKey) (hg : g (r, k) = true) (hin : c.env.isIn k = true) (hr : y.round = 3 * r) (ho : ∃ op, y.body = .other op)
      (rd' : ∀ x, rd c.env y.body x → ∃ a ∈ l, a.same r k = true ∧ rd c.env a.body x) (wr' : ∀ x, wr c.env y.body x = true → zone (r, k) x)
  | comm (r : Nat) (k : CKey) (s n : Nat) (hg : g (r, k) = true) (hlen : 2 ≤ (l.filter (CAct.same r k)).length) (hr : y.round = 3 * r + 1) (hb : y.body = .comm k s s n)
      (hz : ∀ x, s ≤ x ∧ x < s + n * c.es ↔ zone (r, k) x)
  | copyFrom (r : Nat) (k : CKey) (hg : g (r, k) = true) (hout : c.env.isOut k = true) (hr : y.round = 3 * r + 2) (ho : ∃ op, y.body = .other op)
      (rd' : ∀ x, rd c.env y.body x → zone (r, k) x) (wr' : ∀ x, wr c.env y.body x = true → ∃ a ∈ l, a.same r k = true ∧ wr c.env a.body x = true)

theorem same_comm {a : CAct β} {r : Nat} {k : CKey} (h : a.same r k = true) : a.round = r ∧ a.body = .comm k a.src a.dst a.count := by
  unfold CAct.same at h
  unfold CAct.src CAct.dst CAct.count
  split at h
  · rename_i k' s d n hb
    simp only [decide_eq_true_eq] at h
    rw [hb]
    exact ⟨h.1, by rw [h.2]⟩
  · cases h

theorem comb1_cfp (c : PCtx β) (B : Nat) (l : List (CAct β)) : ∃ g zone, (∀ y ∈ c.comb1 B l, CFp c B l g zone y) ∧
    (∀ rk x, zone rk x → B ≤ x ∧ x < B + (combGo c.env [] 0 l).2 * c.es) ∧ (∀ rk rk' x, zone rk x → zone rk' x → rk = rk') := by
  obtain ⟨g, Z, h1, h2, h3⟩ := combGo_cls c.env l [] 0
  refine ⟨g, fun rk x => B + (Z rk).1 * c.es ≤ x ∧ x < B + (Z rk).2 * c.es, ?_, ?_, ?_⟩
  · intro y hy
    obtain ⟨z, hz, rfl⟩ := List.mem_map.1 hy
    rcases h1 z hz with ⟨a, ha, rfl, hk⟩ | ⟨r, k, _, hg, hlen, ⟨ce, rfl, hin, hen⟩ | rfl | ⟨ce, rfl, hout, hen⟩⟩
    · exact CFp.act a ha rfl rfl (fun k s d n e => (hk k s d n e).2)
    · refine CFp.copyTo r k hg hin rfl ⟨_, rfl⟩ ?_ ?_
      · rintro x ⟨o, ho, hx⟩
        obtain ⟨en, hm, rfl⟩ := List.mem_map.1 ho
        obtain ⟨⟨b, hb, hs, e1, e2⟩, _⟩ := hen en hm
        refine ⟨b, hb, hs, ?_⟩
        rw [(same_comm hs).2]
        have hx : en.ptr ≤ x ∧ x < en.ptr + en.bytes := hx
        rw [e1, e2] at hx
        exact ⟨hin, hx⟩
      · intro x hx
        have hx : (ce.map (fun c => copyOp (K := CKey) (β := β) c.ptr (B + c.offset) c.bytes)).any (fun o => o.W x) = true := hx
        rw [List.any_eq_true] at hx
        obtain ⟨o, ho, hx⟩ := hx
        obtain ⟨en, hm, rfl⟩ := List.mem_map.1 ho
        obtain ⟨_, e1, e2⟩ := hen en hm
        have hx : decide (B + en.offset ≤ x ∧ x < B + en.offset + en.bytes) = true := hx
        rw [decide_eq_true_eq] at hx
        have e1 : (Z (r, k)).1 * c.es ≤ en.offset := e1
        have e2 : en.offset + en.bytes ≤ (Z (r, k)).2 * c.es := e2
        show B + (Z (r, k)).1 * c.es ≤ x ∧ x < B + (Z (r, k)).2 * c.es
        omega
    · refine CFp.comm r k _ _ hg hlen rfl rfl ?_
      intro x
      have h4 := (h2 (r, k)).2.1
      have e2 : ((Z (r, k)).2 - (Z (r, k)).1) * c.es = (Z (r, k)).2 * c.es - (Z (r, k)).1 * c.es := Nat.sub_mul _ _ _
      have := Nat.mul_le_mul_right c.es h4
      show B + (Z (r, k)).1 * c.es ≤ x ∧ x < B + (Z (r, k)).1 * c.es + ((Z (r, k)).2 - (Z (r, k)).1) * c.es ↔ B + (Z (r, k)).1 * c.es ≤ x ∧ x < B + (Z (r, k)).2 * c.es
      rw [e2]
      omega
    · refine CFp.copyFrom r k hg hout rfl ⟨_, rfl⟩ ?_ ?_
      · rintro x ⟨o, ho, hx⟩
        obtain ⟨en, hm, rfl⟩ := List.mem_map.1 ho
        obtain ⟨_, e1, e2⟩ := hen en hm
        have hx : B + en.offset ≤ x ∧ x < B + en.offset + en.bytes := hx
        have e1 : (Z (r, k)).1 * c.es ≤ en.offset := e1
        have e2 : en.offset + en.bytes ≤ (Z (r, k)).2 * c.es := e2
        show B + (Z (r, k)).1 * c.es ≤ x ∧ x < B + (Z (r, k)).2 * c.es
        omega
      · intro x hx
        have hx : (ce.map (fun c => copyOp (K := CKey) (β := β) (B + c.offset) c.ptr c.bytes)).any (fun o => o.W x) = true := hx
        rw [List.any_eq_true] at hx
        obtain ⟨o, ho, hx⟩ := hx
        obtain ⟨en, hm, rfl⟩ := List.mem_map.1 ho
        obtain ⟨⟨b, hb, hs, e1, e2⟩, _⟩ := hen en hm
        have hx : decide (en.ptr ≤ x ∧ x < en.ptr + en.bytes) = true := hx
        rw [decide_eq_true_eq, e1, e2] at hx
        refine ⟨b, hb, hs, ?_⟩
        rw [(same_comm hs).2]
        show (c.env.isOut k && decide (b.dst ≤ x ∧ x < b.dst + b.count * c.es)) = true
        rw [hout, Bool.true_and, decide_eq_true_eq]
        exact hx
  · intro rk x hx
    obtain ⟨i1, i2, i3⟩ := h2 rk
    have := Nat.mul_le_mul_right c.es i3
    omega
  · intro rk rk' x hx hx'
    by_contra hne
    rcases h3 rk rk' hne with h | h
    · have := Nat.mul_le_mul_right c.es h
      omega
    · have := Nat.mul_le_mul_right c.es h
      omega

/-! ### Combining keeps the condition -/

theorem send_iff {b : CBody β} : isSendB b = true ↔ ∃ q s d n, b = .comm (.send q) s d n := by
  constructor
  · intro h
    cases b with
    | other => cases h
    | comm k s d n => cases k <;> first | exact ⟨_, _, _, _, rfl⟩ | cases h
  · rintro ⟨q, s, d, n, rfl⟩; rfl

theorem recv_iff {b : CBody β} : isRecvB b = true ↔ ∃ q s d n, b = .comm (.recv q) s d n := by
  constructor
  · intro h
    cases b with
    | other => cases h
    | comm k s d n => cases k <;> first | exact ⟨_, _, _, _, rfl⟩ | cases h
  · rintro ⟨q, s, d, n, rfl⟩; rfl

/-- Actions in different rounds have the condition, and communication with different
keys in the same round is independent. -/
structure RoundAR (e : CEnv) (l : List (CAct β)) : Prop where
  ar : ∀ a ∈ l, ∀ b ∈ l, a.round < b.round → AR e a.body b.body
  mi : ∀ a ∈ l, ∀ b ∈ l, ∀ k s d n k' s' d' n', a.round = b.round → a.body = .comm k s d n → b.body = .comm k' s' d' n' → k ≠ k' → MI e a.body b.body

theorem comb1_ar {c : PCtx β} {B : Nat} {l : List (CAct β)} (h : RoundAR c.env l)
    (hbuf : ∀ a ∈ l, ∀ x, B ≤ x → x < B + (combGo c.env [] 0 l).2 * c.es → ¬ rd c.env a.body x ∧ wr c.env a.body x = false) :
    ∀ y ∈ c.comb1 B l, ∀ z ∈ c.comb1 B l, y.round < z.round → AR c.env y.body z.body := by
  obtain ⟨g, zone, h1, h2, h3⟩ := comb1_cfp c B l
  have hz : ∀ rk x, zone rk x → ∀ a ∈ l, ¬ rd c.env a.body x ∧ wr c.env a.body x = false := fun rk x hx a ha => hbuf a ha x (h2 rk x hx).1 (h2 rk x hx).2
  intro y hy z hz' hr
  constructor
  · -- what is sent is not changed later
    intro hs x hx
    obtain ⟨q, sa, sd, sn, hyb⟩ := send_iff.1 hs
    rw [Bool.eq_false_iff]
    intro hw
    cases h1 y hy with
    | copyTo r k hg hin hr' ho => obtain ⟨op, ho⟩ := ho; rw [ho] at hyb; cases hyb
    | copyFrom r k hg hin hr' ho => obtain ⟨op, ho⟩ := ho; rw [ho] at hyb; cases hyb
    | act a ha har hab hak =>
      rw [hab] at hx hs hyb
      cases h1 z hz' with
      | act b hb hbr hbb _ =>
        rw [hbb] at hw
        rw [(h.ar a ha b hb (by omega)).1 hs x hx] at hw
        cases hw
      | copyTo r k hg hin hr' ho rd' wr' => exact (hz _ x (wr' x hw) a ha).1 hx
      | comm r k s n hg hlen hr' hb hzz =>
        rw [hb] at hw
        have hw : (c.env.isOut k && decide (s ≤ x ∧ x < s + n * c.es)) = true := hw
        rw [Bool.and_eq_true, decide_eq_true_eq] at hw
        exact (hz _ x ((hzz x).1 hw.2) a ha).1 hx
      | copyFrom r k hg hin hr' ho rd' wr' =>
        obtain ⟨b, hb, hsb, hwb⟩ := wr' x hw
        obtain ⟨hbr, hbb⟩ := same_comm hsb
        rcases Nat.lt_or_ge a.round b.round with hlt | hge
        · rw [(h.ar a ha b hb hlt).1 hs x hx] at hwb
          cases hwb
        · have hreq : a.round = b.round := by omega
          refine (h.mi a ha b hb _ _ _ _ _ _ _ _ hreq hyb hbb ?_).2 x hwb hx
          rintro rfl
          have := hak _ _ _ _ hyb
          rw [hreq, hbr, hg] at this
          cases this
    | comm r k s n hg hlen hr' hb hzz =>
      rw [hb] at hx hyb
      have hx : c.env.isIn k = true ∧ s ≤ x ∧ x < s + n * c.es := hx
      have hxz := (hzz x).1 hx.2
      cases hyb
      cases h1 z hz' with
      | act b hb' hbr hbb _ =>
        rw [hbb] at hw
        rw [(hz _ x hxz b hb').2] at hw
        cases hw
      | copyTo r' k' hg' hin' hr'' ho rd' wr' =>
        have := h3 _ _ x (wr' x hw) hxz
        cases this
        omega
      | comm r' k' s' n' hg' hlen' hr'' hb' hzz' =>
        rw [hb'] at hw
        have hw : (c.env.isOut k' && decide (s' ≤ x ∧ x < s' + n' * c.es)) = true := hw
        rw [Bool.and_eq_true, decide_eq_true_eq] at hw
        have := h3 _ _ x ((hzz' x).1 hw.2) hxz
        cases this
        omega
      | copyFrom r' k' hg' hin' hr'' ho rd' wr' =>
        obtain ⟨b, hb', hsb, hwb⟩ := wr' x hw
        rw [(hz _ x hxz b hb').2] at hwb
        cases hwb
  · -- memory of a receive is not used before
    intro hs x hx
    obtain ⟨q, sa, sd, sn, hzb⟩ := recv_iff.1 hs
    cases h1 z hz' with
    | copyTo r k hg hin hr' ho => obtain ⟨op, ho⟩ := ho; rw [ho] at hzb; cases hzb
    | copyFrom r k hg hin hr' ho => obtain ⟨op, ho⟩ := ho; rw [ho] at hzb; cases hzb
    | act b hb hbr hbb hbk =>
      rw [hbb] at hx hs hzb
      have nz : ∀ rk, ¬ zone rk x := fun rk hz1 => by
        rw [(hz rk x hz1 b hb).2] at hx
        cases hx
      cases h1 y hy with
      | act a ha har hab _ =>
        rw [hab]
        exact (h.ar a ha b hb (by omega)).2 hs x hx
      | copyTo r k hg hin hr' ho rd' wr' =>
        refine ⟨fun hrd => ?_, ?_⟩
        · obtain ⟨a, ha, hsa, hra⟩ := rd' x hrd
          obtain ⟨har, hab⟩ := same_comm hsa
          rcases Nat.lt_or_ge a.round b.round with hlt | hge
          · exact ((h.ar a ha b hb hlt).2 hs x hx).1 hra
          · have hreq : a.round = b.round := by omega
            refine (h.mi a ha b hb _ _ _ _ _ _ _ _ hreq hab hzb ?_).2 x hx hra
            rintro rfl
            have := hbk _ _ _ _ hzb
            rw [← hreq, har, hg] at this
            cases this
        · rw [Bool.eq_false_iff]
          intro hw
          exact nz _ (wr' x hw)
      | comm r k s n hg hlen hr' hb' hzz =>
        rw [hb']
        refine ⟨fun hrd => ?_, ?_⟩
        · exact nz _ ((hzz x).1 hrd.2)
        · rw [Bool.eq_false_iff]
          intro hw
          have hw : (c.env.isOut k && decide (s ≤ x ∧ x < s + n * c.es)) = true := hw
          rw [Bool.and_eq_true, decide_eq_true_eq] at hw
          exact nz _ ((hzz x).1 hw.2)
      | copyFrom r k hg hin hr' ho rd' wr' =>
        refine ⟨fun hrd => nz _ (rd' x hrd), ?_⟩
        rw [Bool.eq_false_iff]
        intro hw
        obtain ⟨a, ha, hsa, hwa⟩ := wr' x hw
        have har := (same_comm hsa).1
        rw [((h.ar a ha b hb (by omega)).2 hs x hx).2] at hwa
        cases hwa
    | comm r k s n hg hlen hr' hb hzz =>
      rw [hb] at hx hzb
      have hx : (c.env.isOut k && decide (s ≤ x ∧ x < s + n * c.es)) = true := hx
      rw [Bool.and_eq_true, decide_eq_true_eq] at hx
      have hxz := (hzz x).1 hx.2
      cases hzb
      cases h1 y hy with
      | act a ha har hab _ =>
        rw [hab]
        exact hz _ x hxz a ha
      | copyTo r' k' hg' hin' hr'' ho rd' wr' =>
        refine ⟨fun hrd => ?_, ?_⟩
        · obtain ⟨a, ha, _, hra⟩ := rd' x hrd
          exact (hz _ x hxz a ha).1 hra
        · rw [Bool.eq_false_iff]
          intro hw
          have := h3 _ _ x (wr' x hw) hxz
          cases this
          cases hin'
      | comm r' k' s' n' hg' hlen' hr'' hb' hzz' =>
        have key : ∀ {P : Prop}, s' ≤ x ∧ x < s' + n' * c.es → P := fun hh => by
          have := h3 _ _ x ((hzz' x).1 hh) hxz
          cases this
          omega
        rw [hb']
        refine ⟨fun hrd => key hrd.2, ?_⟩
        rw [Bool.eq_false_iff]
        intro hw
        have hw : (c.env.isOut k' && decide (s' ≤ x ∧ x < s' + n' * c.es)) = true := hw
        rw [Bool.and_eq_true, decide_eq_true_eq] at hw
        exact key hw.2
      | copyFrom r' k' hg' hin' hr'' ho rd' wr' =>
        refine ⟨fun hrd => ?_, ?_⟩
        · have := h3 _ _ x (rd' x hrd) hxz
          cases this
          omega
        · rw [Bool.eq_false_iff]
          intro hw
          obtain ⟨a, ha, _, hwa⟩ := wr' x hw
          rw [(hz _ x hxz a ha).2] at hwa
          cases hwa

end Laik.Mp
