import Verif.Model.Conn
/-!
# Lemmas about messages on a connection
-/

namespace Laik.Cn

theorem enc_length (k n : Nat) : (enc k n).length = k := by
  induction k generalizing n with
  | zero => rfl
  | succ k ih => rw [enc, List.length_cons, ih]

theorem dec_enc (k n : Nat) (h : n < 256 ^ k) : dec (enc k n) = n := by
  induction k generalizing n with
  | zero => rw [Nat.pow_zero] at h; rw [enc, dec]; omega
  | succ k ih =>
    rw [enc, dec, ih (n / 256) (by rw [Nat.pow_succ] at h; exact Nat.div_lt_of_lt_mul (by rw [Nat.mul_comm]; exact h))]
    omega

/-- A receiver which gets a part of the bytes `w` of message `a` asks for more bytes, but
not more than are to come; with all bytes it has the message. -/
structure Good {α : Type} (p : Bytes → Parse α) (w : Bytes) (a : α) : Prop where
  part : ∀ u v, w = u ++ v → v ≠ [] → ∃ n, p u = .more n ∧ 0 < n ∧ n ≤ v.length
  full : p w = .done a []

theorem good_done {α : Type} (a : α) : Good (fun r => Parse.done a r) [] a :=
  ⟨fun u v h hv => absurd (List.append_eq_nil_iff.1 h.symm).2 hv, rfl⟩

theorem good_readN {α : Type} {n : Nat} {d w : Bytes} {k : Bytes → Bytes → Parse α} {a : α} (hd : d.length = n)
    (h : Good (k d) w a) : Good (fun g => readN n g k) (d ++ w) a := by
  constructor
  · intro u v e hv
    simp only [readN]
    by_cases hu : u.length < n
    · refine ⟨_, if_pos hu, by omega, ?_⟩
      have := congrArg List.length e
      simp only [List.length_append] at this
      omega
    · rw [if_neg hu]
      have h1 : d = u.take n := by
        have := congrArg (List.take n) e
        rw [List.take_left' hd, List.take_append_of_le_length (by omega)] at this
        exact this
      have h2 : w = u.drop n ++ v := by
        have := congrArg (List.drop n) e
        rw [List.drop_left' hd, List.drop_append_of_le_length (by omega)] at this
        exact this
      rw [← h1]
      exact h.part _ _ h2 hv
  · simp only [readN]
    rw [if_neg (by simp; omega), List.take_left' hd, List.drop_left' hd]
    exact h.full

theorem good_read64 {α : Type} {n : Nat} {w : Bytes} {k : Nat → Bytes → Parse α} {a : α} (hn : n < 2 ^ 64)
    (h : Good (k n) w a) : Good (fun g => read64 g k) (enc 8 n ++ w) a := by
  refine good_readN (enc_length 8 n) ?_
  rw [dec_enc 8 n (by omega)]
  exact h

theorem good_readBytes {α : Type} {b w : Bytes} {k : Bytes → Bytes → Parse α} {a : α} (hb : b.length < 2 ^ 63)
    (h : Good (k b) w a) : Good (fun g => readBytes g k) (encBytes b ++ w) a := by
  rw [encBytes, List.append_assoc]
  refine good_read64 (by omega) ?_
  simp only [if_neg (Nat.not_le.2 hb)]
  exact good_readN rfl h

theorem good_req (q : Req) (h : q.ok) : Good parseReq q.enc q := by
  cases q with
  | add hd b =>
    refine good_read64 (by decide) (good_readBytes h.1 ?_)
    have := good_readBytes (k := fun b r => Parse.done (Req.add hd b) r) h.2 (good_done _)
    rw [List.append_nil] at this
    exact this
  | get hd =>
    refine good_read64 (by decide) ?_
    have := good_readBytes (k := fun h r => Parse.done (Req.get h) r) h (good_done (Req.get hd))
    rw [List.append_nil] at this
    exact this
  | tryAdd hd b =>
    refine good_read64 (by decide) (good_readBytes h.1 ?_)
    have := good_readBytes (k := fun b r => Parse.done (Req.tryAdd hd b) r) h.2 (good_done _)
    rw [List.append_nil] at this
    exact this

theorem good_rep (q : Req) (a : Rep) (h : fits q a) : Good (parseRep q) a.enc a := by
  have g1 : ∀ (n : Nat) (k : Nat → Bytes → Parse Rep), n < 2 ^ 64 → Good (k n) [] a → Good (fun g => read64 g k) (enc 8 n) a := by
    intro n k hn hk
    have := good_read64 (k := k) hn hk
    rw [List.append_nil] at this
    exact this
  cases q with
  | add hd b =>
    cases a with
    | accepted => exact g1 1 _ (by decide) (good_done _)
    | refused => exact absurd h id
    | body b => exact absurd h id
  | get hd =>
    cases a with
    | accepted => exact absurd h id
    | refused => exact g1 0 _ (by decide) (good_done _)
    | body b =>
      refine good_read64 (by decide) ?_
      have := good_readBytes (k := fun b r => Parse.done (Rep.body b) r) h (good_done _)
      rw [List.append_nil] at this
      exact this
  | tryAdd hd b =>
    cases a with
    | accepted => exact g1 1 _ (by decide) (good_done _)
    | refused => exact g1 0 _ (by decide) (good_done _)
    | body b => exact absurd h id

theorem req_enc_ne (q : Req) : q.enc ≠ [] := by
  cases q <;> simp [Req.enc, enc]

theorem rep_enc_ne (a : Rep) : a.enc ≠ [] := by
  cases a <;> simp [Rep.enc, enc]

/-- Relation between the sides of a connection. -/
def Inv (x : Conn) : Prop :=
  match x.c, x.s with
  | .idle, .reading g => g = [] ∧ x.up = [] ∧ x.down = [] ∧ x.handled = x.completed ∧ x.started = x.completed.map Prod.fst
  | .idle, .sending _ => False
  | .idle, .closed => x.down = [] ∧ x.handled = x.completed ∧ x.started = x.completed.map Prod.fst
  | .sending q v, .reading g => v ≠ [] ∧ q.ok ∧ g ++ x.up ++ v = q.enc ∧ x.down = [] ∧ x.handled = x.completed ∧
      x.started = x.completed.map Prod.fst ++ [q]
  | .sending _ _, .sending _ => False
  | .sending q v, .closed => v ≠ [] ∧ x.down = [] ∧ x.handled = x.completed ∧ x.started = x.completed.map Prod.fst ++ [q]
  | .reading q g', .reading g => q.ok ∧ x.started = x.completed.map Prod.fst ++ [q] ∧
      ((g ++ x.up = q.enc ∧ g' = [] ∧ x.down = [] ∧ x.handled = x.completed) ∨
       (g = [] ∧ x.up = [] ∧ ∃ a, fits q a ∧ g' ++ x.down = a.enc ∧ x.handled = x.completed ++ [(q, a)]))
  | .reading q g', .sending v => q.ok ∧ x.started = x.completed.map Prod.fst ++ [q] ∧ v ≠ [] ∧ x.up = [] ∧
      ∃ a, fits q a ∧ g' ++ x.down ++ v = a.enc ∧ x.handled = x.completed ++ [(q, a)]
  | .reading q g', .closed => x.started = x.completed.map Prod.fst ++ [q] ∧
      ((g' = [] ∧ x.down = [] ∧ x.handled = x.completed) ∨
       ∃ a, fits q a ∧ g' ++ x.down <+: a.enc ∧ x.handled = x.completed ++ [(q, a)])
  | .closed, .reading g =>
      (g = [] ∧ x.up = [] ∧ x.handled = x.completed ∧ x.started = x.completed.map Prod.fst) ∨
      (∃ q, q.ok ∧ g ++ x.up <+: q.enc ∧ x.handled = x.completed ∧ x.started = x.completed.map Prod.fst ++ [q]) ∨
      (∃ q a, g = [] ∧ x.up = [] ∧ x.handled = x.completed ++ [(q, a)] ∧ x.started = x.completed.map Prod.fst ++ [q])
  | .closed, .sending _ => x.up = [] ∧ ∃ q a, x.handled = x.completed ++ [(q, a)] ∧ x.started = x.completed.map Prod.fst ++ [q]
  | .closed, .closed => (x.handled = x.completed ∧ x.started = x.completed.map Prod.fst) ∨
      (∃ q, x.handled = x.completed ∧ x.started = x.completed.map Prod.fst ++ [q]) ∨
      (∃ q a, x.handled = x.completed ++ [(q, a)] ∧ x.started = x.completed.map Prod.fst ++ [q])

theorem prefix_part {α : Type} {p : Bytes → Parse α} {w : Bytes} {a : α} (h : Good p w a) {u : Bytes} (hu : u <+: w) :
    (u = w ∧ p u = .done a []) ∨ (u ≠ w ∧ ∃ n, p u = .more n ∧ 0 < n) := by
  obtain ⟨v, rfl⟩ := hu
  by_cases hv : v = []
  · subst hv
    exact Or.inl ⟨by simp, by have := h.full; rw [List.append_nil] at this; exact this⟩
  · obtain ⟨n, h1, h2, _⟩ := h.part u v rfl hv
    exact Or.inr ⟨fun e => hv (by have := congrArg List.length e; simp at this; exact this), n, h1, h2⟩

theorem parse_nil : parseReq [] = .more 8 := rfl

/-- The server has a request: it got all bytes of it. -/
theorem handle_full {g r w : Bytes} {q q' : Req} (hq : q'.ok) (hp : g ++ w <+: q'.enc) (h : parseReq g = .done q r) :
    g = q'.enc ∧ q = q' ∧ w = [] := by
  have hg : g <+: q'.enc := List.IsPrefix.trans ⟨w, rfl⟩ hp
  rcases prefix_part (good_req q' hq) hg with ⟨h1, h2⟩ | ⟨_, n, h2, _⟩
  · rw [h2] at h
    cases h
    refine ⟨h1, rfl, ?_⟩
    have := hp.length_le
    rw [List.length_append, h1] at this
    exact List.length_eq_zero_iff.1 (by omega)
  · rw [h2] at h; cases h

theorem take_drop_assoc (g u : Bytes) (k : Nat) : g ++ u.take k ++ u.drop k = g ++ u := by
  rw [List.append_assoc, List.take_append_drop]

theorem work_inv {cap : Nat} {x y : Conn} (h : Work cap x y) (i : Inv x) : Inv y := by
  obtain ⟨c, s, up, down, started, completed, handled⟩ := x
  cases h with
  | cSend q v k hc h0 hk hcap =>
    simp only at hc
    subst hc
    by_cases hv : v.drop k = []
    · simp only [Cl.after, if_pos hv]
      have hvk : v.take k = v := by
        have := List.take_append_drop k v
        rw [hv, List.append_nil] at this
        exact this
      rw [hvk]
      cases s with
      | reading g =>
        obtain ⟨_, i2, i3, i4, i5, i6⟩ := i
        exact ⟨i2, i6, Or.inl ⟨by simpa using i3, rfl, i4, i5⟩⟩
      | sending w => exact i.elim
      | closed =>
        obtain ⟨_, i4, i5, i6⟩ := i
        exact ⟨i6, Or.inl ⟨rfl, i4, i5⟩⟩
    · simp only [Cl.after, if_neg hv]
      cases s with
      | reading g =>
        obtain ⟨_, i2, i3, i4, i5, i6⟩ := i
        refine ⟨hv, i2, ?_, i4, i5, i6⟩
        simp only at i3 ⊢
        rw [← i3]
        simp
      | sending w => exact i
      | closed =>
        obtain ⟨_, i4, i5, i6⟩ := i
        exact ⟨hv, i4, i5, i6⟩
  | sRecv g n k hs hp h0 hk hu =>
    simp only at hs
    subst hs
    have hne : up ≠ [] := by
      rintro rfl
      simp at hu
      omega
    cases c with
    | idle => exact absurd i.2.1 hne
    | sending q v =>
      obtain ⟨i1, i2, i3, i4, i5, i6⟩ := i
      refine ⟨i1, i2, ?_, i4, i5, i6⟩
      simp only at i3 ⊢
      rw [take_drop_assoc]
      exact i3
    | reading q g' =>
      obtain ⟨i1, i2, i3⟩ := i
      refine ⟨i1, i2, ?_⟩
      rcases i3 with ⟨j1, j2, j3, j4⟩ | ⟨_, j2, _⟩
      · refine Or.inl ⟨?_, j2, j3, j4⟩
        simp only at j1 ⊢
        rw [take_drop_assoc]
        exact j1
      · exact absurd j2 hne
    | closed =>
      rcases i with ⟨_, j2, _⟩ | ⟨q, j1, j2, j3, j4⟩ | ⟨_, _, _, j2, _⟩
      · exact absurd j2 hne
      · refine Or.inr (Or.inl ⟨q, j1, ?_, j3, j4⟩)
        simp only at j2 ⊢
        rw [take_drop_assoc]
        exact j2
      · exact absurd j2 hne
  | sHandle g r q a hs hp hf =>
    simp only at hs
    subst hs
    cases c with
    | idle => rw [i.1, parse_nil] at hp; cases hp
    | sending q' v =>
      obtain ⟨i1, i2, i3, _⟩ := i
      simp only at i3
      rw [List.append_assoc] at i3
      obtain ⟨_, _, hw⟩ := handle_full i2 (by rw [i3]; exact List.prefix_rfl) hp
      exact absurd (List.append_eq_nil_iff.1 hw).2 i1
    | reading q' g' =>
      obtain ⟨i1, i2, i3⟩ := i
      rcases i3 with ⟨j1, j2, j3, j4⟩ | ⟨j1, _⟩
      · simp only at j1
        obtain ⟨h1, rfl, h3⟩ := handle_full i1 (by rw [j1]; exact List.prefix_rfl) hp
        refine ⟨i1, i2, rep_enc_ne a, h3, a, hf, ?_, ?_⟩
        · simp only at j3 ⊢
          rw [j2, j3]
          rfl
        · simp only at j4 ⊢
          rw [j4]
      · rw [j1, parse_nil] at hp; cases hp
    | closed =>
      rcases i with ⟨j1, _⟩ | ⟨q', j1, j2, j3, j4⟩ | ⟨_, _, j1, _⟩
      · rw [j1, parse_nil] at hp; cases hp
      · simp only at j2 j3 j4
        obtain ⟨_, rfl, h3⟩ := handle_full j1 j2 hp
        exact ⟨h3, q, a, by simp only [j3], j4⟩
      · rw [j1, parse_nil] at hp; cases hp
  | sSend v k hs h0 hk hcap =>
    simp only at hs
    subst hs
    cases c with
    | idle => exact i.elim
    | sending q w => exact i.elim
    | reading q g' =>
      obtain ⟨i1, i2, i3, i4, a, i5, i6, i7⟩ := i
      simp only at i6
      by_cases hv : v.drop k = []
      · simp only [Se.after, if_pos hv]
        have hvk : v.take k = v := by
          have := List.take_append_drop k v
          rw [hv, List.append_nil] at this
          exact this
        rw [hvk]
        exact ⟨i1, i2, Or.inr ⟨rfl, i4, a, i5, by simp only; rw [← List.append_assoc]; exact i6, i7⟩⟩
      · simp only [Se.after, if_neg hv]
        refine ⟨i1, i2, hv, i4, a, i5, ?_, i7⟩
        simp only
        rw [← i6]
        simp
    | closed =>
      obtain ⟨i1, q, a, i2, i3⟩ := i
      by_cases hv : v.drop k = []
      · simp only [Se.after, if_pos hv]
        exact Or.inr (Or.inr ⟨q, a, rfl, i1, i2, i3⟩)
      · simp only [Se.after, if_neg hv]
        exact ⟨i1, q, a, i2, i3⟩
  | cRecv q g n k hc hp h0 hk hd =>
    simp only at hc
    subst hc
    have hne : down ≠ [] := by
      rintro rfl
      simp at hd
      omega
    cases s with
    | reading g' =>
      obtain ⟨i1, i2, i3⟩ := i
      refine ⟨i1, i2, ?_⟩
      rcases i3 with ⟨_, _, j3, _⟩ | ⟨j1, j2, a, j3, j4, j5⟩
      · exact absurd j3 hne
      · refine Or.inr ⟨j1, j2, a, j3, ?_, j5⟩
        simp only at j4 ⊢
        rw [take_drop_assoc]
        exact j4
    | sending v =>
      obtain ⟨i1, i2, i3, i4, a, i5, i6, i7⟩ := i
      refine ⟨i1, i2, i3, i4, a, i5, ?_, i7⟩
      simp only at i6 ⊢
      rw [take_drop_assoc]
      exact i6
    | closed =>
      obtain ⟨i1, i2⟩ := i
      refine ⟨i1, ?_⟩
      rcases i2 with ⟨_, j2, _⟩ | ⟨a, j1, j2, j3⟩
      · exact absurd j2 hne
      · refine Or.inr ⟨a, j1, ?_, j3⟩
        simp only at j2 ⊢
        rw [take_drop_assoc]
        exact j2
  | cDone q g r a hc hp =>
    simp only at hc
    subst hc
    -- the client has an answer: it got all bytes of it
    have key : ∀ (a' : Rep) (w : Bytes), fits q a' → g ++ w <+: a'.enc → g = a'.enc ∧ a = a' ∧ w = [] := by
      intro a' w hf hpre
      have hg : g <+: a'.enc := List.IsPrefix.trans ⟨w, rfl⟩ hpre
      rcases prefix_part (good_rep q a' hf) hg with ⟨h1, h2⟩ | ⟨_, n, h2, _⟩
      · rw [h2] at hp
        cases hp
        refine ⟨h1, rfl, ?_⟩
        have := hpre.length_le
        rw [List.length_append, h1] at this
        exact List.length_eq_zero_iff.1 (by omega)
      · rw [h2] at hp; cases hp
    have hnil : g ≠ [] := by
      rintro rfl
      have : parseRep q [] = .more 8 := rfl
      rw [this] at hp
      cases hp
    cases s with
    | reading g' =>
      obtain ⟨i1, i2, i3⟩ := i
      rcases i3 with ⟨_, j2, _⟩ | ⟨j1, j2, a', j3, j4, j5⟩
      · exact absurd j2 hnil
      · simp only at j4 j5 i2
        obtain ⟨_, rfl, h3⟩ := key a' down j3 (by rw [j4]; exact List.prefix_rfl)
        refine ⟨j1, j2, h3, j5, ?_⟩
        simp only [i2, List.map_append, List.map_cons, List.map_nil]
    | sending v =>
      obtain ⟨i1, i2, i3, i4, a', i5, i6, i7⟩ := i
      simp only at i6
      obtain ⟨_, _, h3⟩ := key a' (down ++ v) i5 (by rw [← List.append_assoc, i6]; exact List.prefix_rfl)
      exact absurd (List.append_eq_nil_iff.1 h3).2 i3
    | closed =>
      obtain ⟨i1, i2⟩ := i
      rcases i2 with ⟨j1, _⟩ | ⟨a', j1, j2, j3⟩
      · exact absurd j1 hnil
      · simp only at j2 j3 i1
        obtain ⟨_, rfl, h3⟩ := key a' down j1 j2
        refine ⟨h3, j3, ?_⟩
        simp only [i1, List.map_append, List.map_cons, List.map_nil]

theorem step_inv {cap : Nat} {x y : Conn} (h : Step cap x y) (i : Inv x) : Inv y := by
  cases h with
  | work h => exact work_inv h i
  | start q hc hq =>
    obtain ⟨c, s, up, down, started, completed, handled⟩ := x
    simp only at hc
    subst hc
    cases s with
    | reading g =>
      obtain ⟨i1, i2, i3, i4, i5⟩ := i
      simp only at i1 i2 i3 i4 i5
      subst i1 i2 i3 i4 i5
      exact ⟨req_enc_ne q, hq, by simp, rfl, rfl, rfl⟩
    | sending v => exact i
    | closed =>
      obtain ⟨i1, i2, i3⟩ := i
      simp only at i1 i2 i3
      exact ⟨req_enc_ne q, i1, i2, by simp only [i3]⟩
  | cClose =>
    obtain ⟨c, s, up, down, started, completed, handled⟩ := x
    cases c with
    | idle =>
      cases s with
      | reading g => exact Or.inl ⟨i.1, i.2.1, i.2.2.2.1, i.2.2.2.2⟩
      | sending v => exact i.elim
      | closed => exact Or.inl ⟨i.2.1, i.2.2⟩
    | sending q v =>
      cases s with
      | reading g => exact Or.inr (Or.inl ⟨q, i.2.1, ⟨v, i.2.2.1⟩, i.2.2.2.2.1, i.2.2.2.2.2⟩)
      | sending v => exact i.elim
      | closed => exact Or.inr (Or.inl ⟨q, i.2.2.1, i.2.2.2⟩)
    | reading q g' =>
      cases s with
      | reading g =>
        rcases i.2.2 with ⟨j1, _, _, j4⟩ | ⟨j1, j2, a, _, _, j5⟩
        · exact Or.inr (Or.inl ⟨q, i.1, by simp only at j1 ⊢; rw [j1]; exact List.prefix_rfl, j4, i.2.1⟩)
        · exact Or.inr (Or.inr ⟨q, a, j1, j2, j5, i.2.1⟩)
      | sending v =>
        obtain ⟨_, i2, _, i4, a, _, _, i7⟩ := i
        exact ⟨i4, q, a, i7, i2⟩
      | closed =>
        rcases i.2 with ⟨_, _, j3⟩ | ⟨a, _, _, j3⟩
        · exact Or.inr (Or.inl ⟨q, j3, i.1⟩)
        · exact Or.inr (Or.inr ⟨q, a, j3, i.1⟩)
    | closed => cases s <;> exact i
  | sClose =>
    obtain ⟨c, s, up, down, started, completed, handled⟩ := x
    cases c with
    | idle =>
      cases s with
      | reading g => exact i.2.2
      | sending v => exact i.elim
      | closed => exact i
    | sending q v =>
      cases s with
      | reading g => exact ⟨i.1, i.2.2.2⟩
      | sending v => exact i.elim
      | closed => exact i
    | reading q g' =>
      cases s with
      | reading g =>
        rcases i.2.2 with ⟨_, j2, j3, j4⟩ | ⟨_, _, a, j3, j4, j5⟩
        · exact ⟨i.2.1, Or.inl ⟨j2, j3, j4⟩⟩
        · exact ⟨i.2.1, Or.inr ⟨a, j3, by simp only at j4 ⊢; rw [j4]; exact List.prefix_rfl, j5⟩⟩
      | sending v =>
        obtain ⟨_, i2, _, _, a, i5, i6, i7⟩ := i
        exact ⟨i2, Or.inr ⟨a, i5, ⟨v, i6⟩, i7⟩⟩
      | closed => exact i
    | closed =>
      cases s with
      | reading g =>
        rcases i with ⟨_, _, j3, j4⟩ | ⟨q, _, _, j3, j4⟩ | ⟨q, a, _, _, j3, j4⟩
        · exact Or.inl ⟨j3, j4⟩
        · exact Or.inr (Or.inl ⟨q, j3, j4⟩)
        · exact Or.inr (Or.inr ⟨q, a, j3, j4⟩)
      | sending v => exact Or.inr (Or.inr i.2)
      | closed => exact i
  | lose j k hcl =>
    obtain ⟨c, s, up, down, started, completed, handled⟩ := x
    have tk : ∀ (g u w : Bytes) (n : Nat), g ++ u <+: w → g ++ u.take n <+: w := by
      intro g u w n hp
      refine List.IsPrefix.trans ?_ hp
      exact ⟨u.drop n, by rw [List.append_assoc, List.take_append_drop]⟩
    have t0 : ∀ (u : Bytes) (n : Nat), u = [] → u.take n = [] := by
      intro u n h
      rw [h, List.take_nil]
    cases s with
    | closed =>
      cases c with
      | idle => exact ⟨t0 _ _ i.1, i.2⟩
      | sending q v => exact ⟨i.1, t0 _ _ i.2.1, i.2.2⟩
      | reading q g =>
        refine ⟨i.1, ?_⟩
        rcases i.2 with ⟨j1, j2, j3⟩ | ⟨a, j1, j2, j3⟩
        · exact Or.inl ⟨j1, t0 _ _ j2, j3⟩
        · exact Or.inr ⟨a, j1, tk _ _ _ _ j2, j3⟩
      | closed => exact i
    | reading g =>
      simp only [reduceCtorEq, or_false] at hcl
      subst hcl
      rcases i with ⟨j1, j2, j3⟩ | ⟨q, j1, j2, j3⟩ | ⟨q, a, j1, j2, j3⟩
      · exact Or.inl ⟨j1, t0 _ _ j2, j3⟩
      · exact Or.inr (Or.inl ⟨q, j1, tk _ _ _ _ j2, j3⟩)
      · exact Or.inr (Or.inr ⟨q, a, j1, t0 _ _ j2, j3⟩)
    | sending v =>
      simp only [reduceCtorEq, or_false] at hcl
      subst hcl
      exact ⟨t0 _ _ i.1, i.2⟩

theorem reach_inv {cap : Nat} {x : Conn} (h : Reach cap x) : Inv x := by
  induction h with
  | new => exact ⟨rfl, rfl, rfl, rfl, rfl⟩
  | step _ hs ih => exact step_inv hs ih

end Laik.Cn
