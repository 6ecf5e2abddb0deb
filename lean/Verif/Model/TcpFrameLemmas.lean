import Verif.Model.TcpFrame
import Mathlib.Tactic.Ring
/-!
# Lemmas on the receive buffer
-/

namespace Laik.Tcp
variable {σ : Type} {R : Receiver σ} {Inv : σ → Prop}

theorem pieces_add (z : Nat) : ∀ (k j : Nat) (b : Bytes),
    pieces z (k + j) b = pieces z k b ++ pieces z j (b.drop (k * z)) := by
  intro k
  induction k with
  | zero => intro j b; simp [pieces]
  | succ k ih =>
    intro j b
    have : k + 1 + j = (k + j) + 1 := by omega
    rw [this]
    simp only [pieces, List.cons_append]
    rw [ih, List.drop_drop]
    congr 3
    rw [Nat.succ_mul, Nat.add_comm]

theorem pieces_take (z : Nat) : ∀ (k n : Nat) (b : Bytes), k * z ≤ n →
    pieces z k (b.take n) = pieces z k b := by
  intro k
  induction k with
  | zero => intro n b _; rfl
  | succ k ih =>
    intro n b h
    rw [Nat.succ_mul] at h
    simp only [pieces]
    rw [List.take_take, Nat.min_eq_left (by omega), List.drop_take, ih (n - z) _ (by omega)]

theorem gotElems_spec (hc : Counting R Inv) {z : Nat} (hz : 0 < z) :
    ∀ (b : Bytes) (s : σ) (t : Bool), Inv s → R.esize s = z → b.length / z ≤ R.rem s →
    (R.rem s ≠ 0 → t = true) →
    ∃ s', gotElems R z s t b = .ok (s', b.drop (b.length / z * z)) ∧
      s' = (pieces z (b.length / z) b).foldl (fun s e => (R.elem s e).1) s ∧
      Inv s' ∧ R.esize s' = z ∧ R.rem s' + b.length / z = R.rem s := by
  intro b
  induction hn : b.length using Nat.strongRecOn generalizing b with
  | _ n ih =>
    intro s t hi he hk ht
    unfold gotElems
    rw [dif_neg (by omega)]
    by_cases hb : n < z
    · rw [dif_pos (by omega), Nat.div_eq_of_lt hb]
      exact ⟨s, by simp, by simp [pieces], hi, he, by omega⟩
    · rw [dif_neg (by omega)]
      have hdiv : n / z = (n - z) / z + 1 := by
        rw [Nat.div_eq_sub_div hz (by omega)]
      have hrem : R.rem s ≠ 0 := by
        intro h; rw [h, hdiv] at hk; exact absurd hk (Nat.not_succ_le_zero _)
      rw [ht hrem, if_neg (by simp)]
      obtain ⟨h1, h2, h3, h4⟩ := hc.elem s (b.take z) hi hrem (by rw [List.length_take, he]; omega)
      obtain ⟨s', g1, g2, g3, g4, g5⟩ := ih (n - z) (by omega) (b.drop z)
        (by rw [List.length_drop, hn]) _ (R.elem s (b.take z)).2 h1 (h3.trans he) (by omega)
        (fun h => h4.2 h)
      refine ⟨s', ?_, ?_, g3, g4, by omega⟩
      · rw [g1, hdiv, List.drop_drop, Nat.succ_mul, Nat.add_comm]
      · rw [g2, hdiv]; rfl

/-- Effect of `got_binary_data` on the first part of a block. -/
theorem gotBinary_spec (hc : Counting R Inv) {s : σ} (hi : Inv s) (b : Bytes)
    (hrem : R.rem s = 0 ∨ (0 < R.esize s ∧ b.length / R.esize s ≤ R.rem s)) :
    ∃ s' k, gotBinary R s b = .ok (s', b.drop k) ∧ s' = takeIn R s b ∧ Inv s' ∧ k ≤ b.length ∧
      ((R.rem s = 0 ∧ k = b.length ∧ s' = s) ∨
        (R.rem s ≠ 0 ∧ 0 < R.esize s ∧ k = b.length / R.esize s * R.esize s ∧
          R.esize s' = R.esize s ∧ R.rem s' + b.length / R.esize s = R.rem s)) := by
  by_cases h0 : R.rem s = 0
  · refine ⟨s, b.length, ?_, ?_, hi, Nat.le_refl _, Or.inl ⟨h0, rfl, rfl⟩⟩
    · unfold gotBinary; rw [if_pos h0, List.drop_length]
    · unfold takeIn; rw [if_pos h0]
  · obtain ⟨hz, hk⟩ := hrem.resolve_left h0
    obtain ⟨s', h1, h2, h3, h4, h5⟩ := gotElems_spec hc hz b s true hi rfl hk (fun _ => rfl)
    refine ⟨s', b.length / R.esize s * R.esize s, ?_, ?_, h3, Nat.div_mul_le_self _ _,
      Or.inr ⟨h0, hz, rfl, h4, h5⟩⟩
    · unfold gotBinary; rw [if_neg h0]; exact h1
    · unfold takeIn; rw [if_neg h0]; exact h2

/-- Taking in a block in two steps. -/
theorem takeIn_append {s s' : σ} {a b : Bytes} (h0 : R.rem s ≠ 0) (hz : 0 < R.esize s)
    (he : R.esize s' = R.esize s) (hr : R.rem s' + a.length / R.esize s = R.rem s)
    (hs : s' = takeIn R s a) (hd : R.esize s ∣ a.length)
    (hb : (a.length + b.length) / R.esize s ≤ R.rem s) :
    takeIn R s (a ++ b) = takeIn R s' b := by
  obtain ⟨k, hk⟩ := hd
  have hka : a.length / R.esize s = k := by rw [hk, Nat.mul_div_cancel_left _ hz]
  have hdiv : (a.length + b.length) / R.esize s = k + b.length / R.esize s := by
    rw [hk, Nat.mul_add_div hz]
  have key : takeIn R s (a ++ b) =
      (pieces (R.esize s) (b.length / R.esize s) b).foldl (fun s e => (R.elem s e).1) s' := by
    rw [hs]
    unfold takeIn
    rw [if_neg h0, if_neg h0, List.length_append, hdiv, pieces_add, List.foldl_append, hka]
    have hkz : k * R.esize s = a.length := by rw [hk, Nat.mul_comm]
    rw [hkz, List.drop_left]
    congr 2
    have := pieces_take (R.esize s) k a.length (a ++ b) (by omega)
    rw [← this, List.take_left]
  rw [key]
  by_cases h1 : R.rem s' = 0
  · have : b.length / R.esize s = 0 := by
      rw [hdiv] at hb
      rw [hka] at hr
      generalize b.length / R.esize s = q at hb ⊢
      omega
    rw [this]
    unfold takeIn
    rw [if_pos h1]; rfl
  · unfold takeIn
    rw [if_neg h1, he]

theorem takeIn_zero {s : σ} (h : R.rem s = 0) (b : Bytes) : takeIn R s b = s := by
  unfold takeIn; rw [if_pos h]

theorem takeIn_short {s : σ} {b : Bytes} (h : b.length < R.esize s) : takeIn R s b = s := by
  unfold takeIn
  split
  · rfl
  · rw [Nat.div_eq_of_lt h]; rfl

/-- State after `n` bytes, from the start of the data of a block on. -/
def afterBlk (R : Receiver σ) (s : σ) (b : Bytes) (ms : List Msg) (n : Nat) : σ :=
  if n < b.length then takeIn R s (b.take n) else after R (takeIn R s b) ms (n - b.length)

theorem after_block (s : σ) (b : Bytes) (ms : List Msg) (m : Nat) :
    after R s (.block b :: ms) (3 + m) = afterBlk R s b ms m := by
  simp only [after, afterBlk]
  rw [if_neg (by omega), show 3 + m - 3 = m by omega]

/-- One call of `got_binary_data` with the first `j` bytes of what is left of
a block. -/
theorem block_step (hc : Counting R Inv) {s : σ} (hi : Inv s) {blk : Bytes} (ms : List Msg)
    (hb : BlockOK R s blk.length) {j : Nat} (hj : j ≤ blk.length) :
    ∃ s' k, gotBinary R s (blk.take j) = .ok (s', (blk.take j).drop k) ∧ Inv s' ∧
      BlockOK R s' (blk.drop k).length ∧ takeIn R s' (blk.drop k) = takeIn R s blk ∧
      (∀ m, afterBlk R s' (blk.drop k) ms m = afterBlk R s blk ms (k + m)) ∧
      (R.esize s' = R.esize s) ∧ k ≤ j ∧ (k = 0 → 0 < j → j < R.esize s ∧ s' = s ∧ R.rem s ≠ 0) ∧
      (j = blk.length → k = j) := by
  have hlen : (blk.take j).length = j := by rw [List.length_take]; omega
  obtain ⟨s', k, h1, h2, h3, h4, h5⟩ := gotBinary_spec hc hi (blk.take j) (by
    rcases hb with h | ⟨h1, h2, h3⟩
    · exact Or.inl h
    · refine Or.inr ⟨h1, ?_⟩
      rw [hlen]
      exact Nat.div_le_of_le_mul (by rw [Nat.mul_comm]; omega))
  rw [hlen] at h4 h5
  rcases h5 with ⟨h0, hk, hs⟩ | ⟨h0, hz, hk, he, hr⟩
  · subst hs
    refine ⟨_, k, h1, hi, Or.inl h0, by rw [takeIn_zero h0, takeIn_zero h0], ?_, rfl, h4, ?_, ?_⟩
    · intro m
      unfold afterBlk
      rw [List.length_drop]
      by_cases hm : m < blk.length - k
      · rw [if_pos hm, if_pos (by omega), takeIn_zero h0, takeIn_zero h0]
      · rw [if_neg hm, if_neg (by omega), takeIn_zero h0, takeIn_zero h0]
        congr 1
        omega
    · intro h h'; omega
    · intro _; exact hk
  · obtain ⟨hz', hd, hle⟩ := hb.resolve_left h0
    have hkd : R.esize s ∣ k := ⟨j / R.esize s, by rw [hk, Nat.mul_comm]⟩
    have hkdiv : k / R.esize s = j / R.esize s := by rw [hk, Nat.mul_div_cancel _ hz]
    have htk : takeIn R s (blk.take k) = s' := by
      rw [h2]
      unfold takeIn
      rw [if_neg h0, hlen, List.length_take, Nat.min_eq_left (by omega), if_neg h0, hkdiv,
        pieces_take _ _ _ _ (by omega), pieces_take _ _ _ _ (by omega)]
    have hlk : (blk.take k).length = k := by rw [List.length_take]; omega
    have happ : ∀ b : Bytes, k + b.length ≤ blk.length →
        takeIn R s (blk.take k ++ b) = takeIn R s' b := by
      intro b hbl
      apply takeIn_append h0 hz he (by rw [hlk, hkdiv]; exact hr) htk.symm (by rw [hlk]; exact hkd)
      rw [hlk]
      exact Nat.div_le_of_le_mul (by rw [Nat.mul_comm]; omega)
    have hfull : takeIn R s' (blk.drop k) = takeIn R s blk := by
      have := happ (blk.drop k) (by rw [List.length_drop]; omega)
      rw [List.take_append_drop] at this
      exact this.symm
    refine ⟨s', k, h1, h3, ?_, hfull, ?_, he, h4, ?_, ?_⟩
    · refine Or.inr ⟨by rw [he]; exact hz, ?_, ?_⟩
      · rw [he, List.length_drop]; exact Nat.dvd_sub hd hkd
      · rw [he, List.length_drop]
        have h6 : R.rem s' * R.esize s + k = R.rem s * R.esize s := by
          rw [← hr, Nat.add_mul, hk]
        omega
    · intro m
      unfold afterBlk
      rw [List.length_drop]
      by_cases hm : m < blk.length - k
      · rw [if_pos hm, if_pos (by omega), ← happ _ (by rw [List.length_take, List.length_drop]; omega)]
        congr 1
        rw [List.take_add]
      · rw [if_neg hm, if_neg (by omega), hfull]
        congr 1
        omega
    · intro hk0 _
      have : j / R.esize s = 0 := by
        rcases Nat.mul_eq_zero.mp (hk.symm.trans hk0) with h | h
        · exact h
        · omega
      have hjz : j < R.esize s := (Nat.div_eq_zero_iff.mp this).resolve_left (by omega)
      exact ⟨hjz, by rw [h2, takeIn_short (by rw [hlen]; exact hjz)], h0⟩
    · intro hj'
      rw [hk, hj', Nat.div_mul_cancel hd]

/-- A state of the loop in `process_rbuf`, with `zs` the bytes still to come;
`G n` is the expected state after `n` of these bytes. -/
inductive Good (R : Receiver σ) (Inv : σ → Prop) (lim : Nat) :
    σ → Nat → Bytes → Bytes → (Nat → σ) → Prop
  | text (s : σ) (cur zs : Bytes) (ms : List Msg) (hi : Inv s) (hw : cur ++ zs = wire ms)
      (hp : Proper R lim s ms) (hcur : ∀ c ∈ cur, c ≠ 10 ∧ c ≠ 4 ∧ c ≠ 13)
      (hh : cur.head? ≠ some 66) :
      Good R Inv lim s 0 cur zs (fun n => after R s ms (cur.length + n))
  | bin (s : σ) (blk zs : Bytes) (ms : List Msg) (hi : Inv s) (hw : zs = blk ++ wire ms)
      (h0 : 0 < blk.length) (hb : BlockOK R s blk.length) (hz : R.esize s ≤ lim)
      (hp : Proper R lim (takeIn R s blk) ms) :
      Good R Inv lim s blk.length [] zs (afterBlk R s blk ms)

theorem UInt8.ne_of_mem {b : Bytes} {c d : UInt8} (h : d ∉ b) (hc : c ∈ b) : c ≠ d := by
  rintro rfl; exact h hc

/-- The next byte in text mode. -/
theorem next_text {lim : Nat} {s : σ} {cur zs : Bytes} {c : UInt8} {ms : List Msg}
    (hw : cur ++ c :: zs = wire ms) (hp : Proper R lim s ms)
    (hcur : ∀ c ∈ cur, c ≠ 10 ∧ c ≠ 4 ∧ c ≠ 13) (hh : cur.head? ≠ some 66)
    (hB : ¬ (cur = [] ∧ c = 66)) :
    ∃ b ms', ms = .line b :: ms' ∧ ((c = 10 ∧ b = cur ∧ zs = wire ms') ∨
      (∃ l, b = cur ++ c :: l ∧ zs = l ++ 10 :: wire ms')) := by
  cases ms with
  | nil => simp [wire] at hw
  | cons m ms' =>
    cases m with
    | block b =>
      exfalso
      simp only [wire, Msg.bytes, List.cons_append] at hw
      cases cur with
      | nil => injection hw with h1 _; exact hB ⟨rfl, h1⟩
      | cons d cur => injection hw with h1 _; subst h1; exact hh rfl
    | line b =>
      refine ⟨b, ms', rfl, ?_⟩
      simp only [wire, Msg.bytes, List.append_assoc, List.singleton_append] at hw
      rcases List.append_eq_append_iff.mp hw with ⟨as, h1, h2⟩ | ⟨bs, h1, h2⟩
      · cases as with
        | nil =>
          simp only [List.append_nil] at h1
          simp only [List.nil_append] at h2
          injection h2 with h2 h3
          exact Or.inl ⟨h2, h1, h3⟩
        | cons a as =>
          simp only [List.cons_append] at h2
          injection h2 with h2 h3
          subst h2
          exact Or.inr ⟨as, h1, h3⟩
      · cases bs with
        | nil =>
          simp only [List.append_nil] at h1
          simp only [List.nil_append] at h2
          injection h2 with h2 h3
          exact Or.inl ⟨h2.symm, h1.symm, h3.symm⟩
        | cons a as =>
          simp only [List.cons_append] at h2
          injection h2 with h2 h3
          subst h2
          exact absurd rfl (hcur 10 (by rw [h1]; simp)).1

/-- Nothing was done with an incomplete line. -/
theorem after_cur {lim : Nat} (hlim : 0 < lim) {s : σ} {cur zs : Bytes} {ms : List Msg}
    (hw : cur ++ zs = wire ms) (hp : Proper R lim s ms)
    (hcur : ∀ c ∈ cur, c ≠ 10 ∧ c ≠ 4 ∧ c ≠ 13) (hh : cur.head? ≠ some 66) :
    after R s ms cur.length = s ∧ cur.length < lim := by
  cases ms with
  | nil =>
    simp only [wire] at hw
    have := (List.append_eq_nil_iff.mp hw).1
    subst this
    exact ⟨rfl, hlim⟩
  | cons m ms =>
    cases m with
    | block b =>
      simp only [wire, Msg.bytes, List.cons_append] at hw
      cases cur with
      | nil => exact ⟨by simp [after], hlim⟩
      | cons d cur => injection hw with h1 _; subst h1; exact absurd rfl hh
    | line b =>
      simp only [wire, Msg.bytes, List.append_assoc, List.singleton_append] at hw
      have hle : cur.length ≤ b.length := by
        rcases List.append_eq_append_iff.mp hw with ⟨as, h1, h2⟩ | ⟨bs, h1, h2⟩
        · rw [h1, List.length_append]; omega
        · cases bs with
          | nil => simp at h1; rw [h1]
          | cons a as =>
            simp only [List.cons_append] at h2
            injection h2 with h2 h3
            subst h2
            exact absurd rfl (hcur 10 (by rw [h1]; simp)).1
      refine ⟨?_, by have := hp.1; omega⟩
      simp only [after]
      rw [if_pos (by omega)]

theorem map_blankCR {cur : Bytes} (hcur : ∀ c ∈ cur, c ≠ 10 ∧ c ≠ 4 ∧ c ≠ 13) :
    cur.map blankCR = cur := by
  conv_rhs => rw [← List.map_id cur]
  apply List.map_congr_left
  intro c hc
  unfold blankCR
  rw [if_neg (hcur c hc).2.2]; rfl

theorem header_len {n : Nat} (h : n < 65536) :
    (UInt8.ofNat (n % 256)).toNat + (UInt8.ofNat (n / 256)).toNat * 256 = n := by
  rw [UInt8.toNat_ofNat', UInt8.toNat_ofNat']
  omega

/-- Nothing more can be done with the bytes in the buffer. -/
def Stuck (R : Receiver σ) (c : Conn σ) : Prop :=
  (c.bin = 0 ∧ ((10 ∉ c.buf ∧ c.buf.head? ≠ some 66) ∨ (c.buf.head? = some 66 ∧ c.buf.length < 3))) ∨
  (0 < c.bin ∧ (c.buf = [] ∨ (c.buf.length < R.esize c.st ∧ R.rem c.st ≠ 0)))

/-- Without more to come, everything was handled. -/
theorem stuck_end {lim : Nat} {c : Conn σ} {G : Nat → σ} (h : Stuck R c)
    (hg : Good R Inv lim c.st c.bin [] c.buf G) : c.buf = [] ∧ c.bin = 0 := by
  obtain ⟨s, bin, buf, cl⟩ := c
  simp only [Stuck] at h
  simp only at hg ⊢
  cases hg with
  | text _ _ ms hi hw hp hcur hh =>
    rw [List.nil_append] at hw
    refine ⟨?_, rfl⟩
    rcases h with ⟨-, h⟩ | ⟨h, -⟩
    · cases ms with
      | nil => exact hw
      | cons m ms =>
        exfalso
        cases m with
        | line b =>
          rcases h with ⟨h1, -⟩ | ⟨h1, h2⟩
          · exact h1 (by rw [hw]; simp [wire, Msg.bytes])
          · rw [hw] at h1
            cases b with
            | nil => simp [wire, Msg.bytes] at h1
            | cons d b => exact hp.2.1 h1
        | block b =>
          rcases h with ⟨-, h1⟩ | ⟨h1, h2⟩
          · exact h1 (by rw [hw]; simp [wire, Msg.bytes])
          · rw [hw] at h2
            simp [wire, Msg.bytes] at h2
            omega
    · omega
  | bin blk _ ms hi hw h0 hb hz hp =>
    exfalso
    have hl : blk.length ≤ buf.length := by rw [hw, List.length_append]; omega
    rcases h with ⟨h, -⟩ | ⟨-, h | ⟨h1, h2⟩⟩
    · omega
    · rw [h] at hl; simp at hl; rw [hl] at h0; simp at h0
    · obtain ⟨g1, g2, g3⟩ := hb.resolve_left h2
      have := Nat.le_of_dvd h0 g2
      omega

/-- The loop in `process_rbuf` on any part of what is sent. -/
theorem scan_spec (hc : Counting R Inv) {lim : Nat} (hlim : 3 ≤ lim) :
    ∀ (n : Nat) (rest : Bytes) (s : σ) (bin : Nat) (cur ys : Bytes) (G : Nat → σ),
    rest.length = n → Good R Inv lim s bin cur (rest ++ ys) G →
    ∃ c', scan R s bin cur rest = .ok c' ∧ c'.closed = false ∧ c'.st = G rest.length ∧
      c'.buf.length < lim ∧ Stuck R c' ∧
      ∃ G', Good R Inv lim c'.st c'.bin [] (c'.buf ++ ys) G' ∧
        ∀ m, G' (c'.buf.length + m) = G (rest.length + m) := by
  intro n
  induction n using Nat.strongRecOn with
  | _ n ih =>
    intro rest s bin cur ys G hn hg
    -- use of the induction hypothesis after `d` bytes
    have step : ∀ (d : Nat) (rest' : Bytes) (s' : σ) (bin' : Nat) (cur' : Bytes) (G'' : Nat → σ),
        0 < d → rest.length = d + rest'.length →
        Good R Inv lim s' bin' cur' (rest' ++ ys) G'' → (∀ m, G'' m = G (d + m)) →
        scan R s bin cur rest = scan R s' bin' cur' rest' →
        ∃ c', scan R s bin cur rest = .ok c' ∧ c'.closed = false ∧ c'.st = G rest.length ∧
          c'.buf.length < lim ∧ Stuck R c' ∧
          ∃ G', Good R Inv lim c'.st c'.bin [] (c'.buf ++ ys) G' ∧
            ∀ m, G' (c'.buf.length + m) = G (rest.length + m) := by
      intro d rest' s' bin' cur' G'' hd hl hg' hG he
      obtain ⟨c', h1, h2, h3, h4, hst, G', h5, h6⟩ := ih rest'.length (by omega) rest' s' bin' cur' ys G'' rfl hg'
      refine ⟨c', he.trans h1, h2, ?_, h4, hst, G', h5, ?_⟩
      · rw [h3, hG, hl]
      · intro m; rw [h6, hG, hl, Nat.add_assoc]
    cases rest with
    | nil =>
      refine ⟨{ st := s, bin := bin, buf := cur }, by rw [scan], rfl, ?_⟩
      cases hg with
      | text _ _ ms hi hw hp hcur hh =>
        obtain ⟨h1, h2⟩ := after_cur (by omega) hw hp hcur hh
        refine ⟨h1.symm, h2, Or.inl ⟨rfl, Or.inl ⟨fun h => (hcur 10 h).1 rfl, hh⟩⟩, fun n => after R s ms (([] : Bytes).length + n),
          Good.text s [] (cur ++ ys) ms hi hw hp (by simp) (by simp), ?_⟩
        intro m
        simp
      | bin blk _ ms hi hw h0 hb hz hp =>
        refine ⟨?_, by show (0 : Nat) < lim; omega, Or.inr ⟨h0, Or.inl rfl⟩, _, Good.bin s blk _ ms hi hw h0 hb hz hp, fun m => rfl⟩
        show s = afterBlk R s blk ms 0
        unfold afterBlk
        rw [if_pos h0, List.take_zero]
        unfold takeIn
        split
        · rfl
        · simp [pieces]
    | cons c rest' =>
      cases hg with
      | bin blk _ ms hi hw h0 hb hz hp =>
        by_cases hlt : (c :: rest').length < blk.length
        · have hx : blk.take (c :: rest').length = c :: rest' := by
            have := congrArg (List.take (c :: rest').length) hw
            rw [List.take_left, List.take_append_of_le_length (by omega)] at this
            exact this.symm
          obtain ⟨s', k, h1, h2, h3, h4, h5, h6, h7, h8, h9⟩ :=
            block_step hc hi ms hb (j := (c :: rest').length) (by omega)
          rw [hx] at h1
          by_cases hk : k = 0
          · obtain ⟨g1, g2, g3⟩ := h8 hk (by simp)
            refine ⟨{ st := s, bin := blk.length, buf := c :: rest' }, ?_, rfl, ?_, by
              show (c :: rest').length < lim; omega, Or.inr ⟨h0, Or.inr ⟨g1, g3⟩⟩, _, Good.bin s blk _ ms hi hw h0 hb hz hp,
              fun m => rfl⟩
            · rw [scan, if_pos h0, if_pos hlt]
              split
              · rename_i e he; rw [h1] at he; cases he
              · rename_i s'' left he
                rw [h1] at he
                injection he with he
                injection he with he1 he2
                rw [hk, List.drop_zero] at he2
                rw [dif_pos (by rw [← he2])]
            · show s = afterBlk R s blk ms (c :: rest').length
              unfold afterBlk
              rw [if_pos hlt, hx, takeIn_short g1]
          · refine step k ((c :: rest').drop k) s' (blk.drop k).length [] _ (by omega)
              (by rw [List.length_drop]; omega)
              (Good.bin s' (blk.drop k) _ ms h2 ?_ ?_ h3 (by omega) (by rw [h4]; exact hp)) h5 ?_
            · have := congrArg (List.drop k) hw
              rw [List.drop_append_of_le_length h7, List.drop_append_of_le_length (by omega)] at this
              exact this
            · rw [List.length_drop]; omega
            · rw [scan, if_pos h0, if_pos hlt]
              split
              · rename_i e he; rw [h1] at he; cases he
              · rename_i s'' left he
                rw [h1] at he
                injection he with he
                injection he with he1 he2
                subst he1
                rw [dif_neg (by rw [← he2, List.length_drop]; omega), ← he2, List.length_drop,
                  List.length_drop]
                congr 1
                omega
        · have hx : (c :: rest').take blk.length = blk := by
            have := congrArg (List.take blk.length) hw
            rw [List.take_left, List.take_append_of_le_length (by omega)] at this
            exact this
          obtain ⟨s', k, h1, h2, h3, h4, h5, h6, h7, h8, h9⟩ :=
            block_step hc hi ms hb (j := blk.length) (Nat.le_refl _)
          have hk := h9 rfl
          rw [hk, List.take_length, List.drop_length] at h1
          rw [hk, List.drop_length] at h4 h5
          have hs' : s' = takeIn R s blk := by
            rw [← h4]
            unfold takeIn
            split
            · rfl
            · simp [pieces]
          refine step blk.length ((c :: rest').drop blk.length) s' 0 [] _ h0
            (by rw [List.length_drop]; omega)
            (Good.text s' [] _ ms h2 ?_ (by rw [hs']; exact hp) (by simp) (by simp)) ?_ ?_
          · rw [List.nil_append]
            have := congrArg (List.drop blk.length) hw
            rw [List.drop_left, List.drop_append_of_le_length (by omega)] at this
            exact this
          · intro m
            rw [← h5 m]
            unfold afterBlk
            rw [List.length_nil, if_neg (by omega), h4, hs', Nat.zero_add, Nat.sub_zero]
          · rw [scan, if_pos h0, if_neg hlt]
            split
            · rename_i e he; rw [hx, h1] at he; cases he
            · rename_i s'' left he
              rw [hx, h1] at he
              injection he with he
              injection he with he1 he2
              subst he1
              rw [← he2, dif_neg (by rw [hx, List.length_nil]; omega), List.length_nil,
                List.nil_append]
      | text _ _ ms hi hw hp hcur hh =>
        by_cases hB : cur = [] ∧ c = 66
        · obtain ⟨rfl, rfl⟩ := hB
          have hms : ∃ b ms', ms = .block b :: ms' := by
            cases ms with
            | nil => simp [wire] at hw
            | cons m ms' =>
              cases m with
              | block b => exact ⟨b, ms', rfl⟩
              | line b =>
                exfalso
                simp only [wire, Msg.bytes, List.append_assoc, List.singleton_append,
                  List.nil_append, List.cons_append] at hw
                cases b with
                | nil => injection hw with h1 _; revert h1; decide
                | cons d b => injection hw with h1 _; exact hp.2.1 (by rw [← h1]; rfl)
          obtain ⟨b, ms', rfl⟩ := hms
          have short : rest'.length < 2 → _ := fun hl =>
            (⟨{ st := s, bin := 0, buf := 66 :: rest' }, by
                rw [scan, if_neg (by omega), if_pos ⟨rfl, rfl⟩, if_pos hl], rfl, by
                show s = after R s (.block b :: ms') _
                simp only [after]
                rw [if_pos (by simp; omega)], by simp; omega,
              Or.inl ⟨rfl, Or.inr ⟨rfl, by simp; omega⟩⟩, _,
              Good.text s [] _ _ hi hw hp (by simp) (by simp), fun m => rfl⟩ :
            ∃ c', scan R s 0 [] (66 :: rest') = .ok c' ∧ c'.closed = false ∧
              c'.st = after R s (.block b :: ms') (([] : Bytes).length + (66 :: rest').length) ∧
              c'.buf.length < lim ∧ Stuck R c' ∧
              ∃ G', Good R Inv lim c'.st c'.bin [] (c'.buf ++ ys) G' ∧
                ∀ m, G' (c'.buf.length + m) =
                  after R s (.block b :: ms') (([] : Bytes).length + ((66 :: rest').length + m)))
          match rest', short with
          | [], short => exact short (by simp)
          | [_], short => exact short (by simp)
          | x :: y :: r, _ =>
            simp only [wire, Msg.bytes, List.nil_append, List.cons_append] at hw
            injection hw with _ hw
            injection hw with hw1 hw
            injection hw with hw2 hw
            obtain ⟨p1, p2, p3, p4⟩ := hp
            have hlen := header_len p1
            rw [← hw1, ← hw2] at hlen
            have hscan : scan R s 0 [] (66 :: x :: y :: r) = scan R s b.length [] r := by
              rw [scan, if_neg (by omega), if_pos ⟨rfl, rfl⟩, if_neg (by simp)]
              simp [hlen]
            have hG : ∀ m, afterBlk R s b ms' m =
                after R s (.block b :: ms') (([] : Bytes).length + (3 + m)) := by
              intro m; rw [List.length_nil, Nat.zero_add, after_block]
            by_cases hb0 : 0 < b.length
            · exact step 3 r s b.length [] _ (by omega) (by simp; omega)
                (Good.bin s b _ ms' hi hw hb0 p3 p2 p4) hG hscan
            · have hb : b = [] := List.length_eq_zero_iff.mp (by omega)
              subst hb
              have hs : takeIn R s [] = s := by
                unfold takeIn
                split
                · rfl
                · simp [pieces]
              refine step 3 r s 0 [] _ (by omega) (by simp; omega)
                (Good.text s [] _ ms' hi hw (by rw [← hs]; exact p4) (by simp) (by simp)) ?_ hscan
              intro m
              dsimp only
              rw [← hG]
              unfold afterBlk
              rw [if_neg (by simp), hs]; simp
        · obtain ⟨b, ms', rfl, hb⟩ := next_text hw hp hcur hh hB
          obtain ⟨p1, p2, p3, p4, p5, p6⟩ := hp
          replace hb : (c = 10 ∧ b = cur ∧ rest' ++ ys = wire ms') ∨
            (∃ l, b = cur ++ c :: l ∧ rest' ++ ys = l ++ 10 :: wire ms') := hb
          rcases hb with ⟨rfl, rfl, hz⟩ | ⟨l, rfl, hz⟩
          · -- end of line
            have hcmd : (gotCmd R s b).1 = takeLine R s b ∧ (gotCmd R s b).2 = true := by
              unfold gotCmd takeLine
              rw [map_blankCR hcur] at p5 ⊢
              by_cases h : b = []
              · rw [if_pos h, if_pos h]; exact ⟨rfl, rfl⟩
              · rw [if_neg h, if_neg h]; exact ⟨rfl, p5 h⟩
            have hinv : Inv (takeLine R s b) := by
              unfold takeLine
              split
              · exact hi
              · exact hc.line _ _ hi
            refine step 1 rest' (takeLine R s b) 0 [] _ (by omega) (by simp; omega)
              (Good.text _ [] _ ms' hinv hz p6 (by simp) (by simp)) ?_ ?_
            · intro m
              simp only [after, List.length_nil, Nat.zero_add]
              rw [if_neg (by omega)]
              congr 1
              omega
            · rw [scan, if_neg (by omega), if_neg hB, if_neg (by decide), if_neg (by decide),
                if_pos rfl, hcmd.1, hcmd.2, if_pos rfl]
          · have hc10 : c ≠ 10 := UInt8.ne_of_mem p3 (by simp)
            have hc4 : c ≠ 4 := UInt8.ne_of_mem p4 (by simp)
            have hhead : (cur ++ [c]).head? ≠ some 66 := by
              cases cur with
              | nil => simp; intro h; exact hB ⟨rfl, h⟩
              | cons d cur => exact hh
            by_cases h13 : c = 13
            · subst h13
              have hmap : (cur ++ 32 :: l).map blankCR = (cur ++ 13 :: l).map blankCR := by
                simp only [List.map_append, List.map_cons]; rfl
              have htl : takeLine R s (cur ++ 32 :: l) = takeLine R s (cur ++ 13 :: l) := by
                unfold takeLine
                rw [if_neg (by simp), if_neg (by simp), hmap]
              refine step 1 rest' s 0 (cur ++ [32]) _ (by omega) (by simp; omega)
                (Good.text s (cur ++ [32]) _ (.line (cur ++ 32 :: l) :: ms') hi ?_ ?_ ?_ ?_) ?_ ?_
              · rw [hz]; simp [wire, Msg.bytes]
              · refine ⟨by simpa using p1, ?_, ?_, ?_, ?_, by rw [htl]; exact p6⟩
                · cases cur with
                  | nil => simp
                  | cons d cur => exact hh
                · simp at p3 ⊢; exact p3
                · simp at p4 ⊢; exact p4
                · intro _; rw [hmap]; exact p5 (by simp)
              · intro d hd
                rcases List.mem_append.mp hd with hd | hd
                · exact hcur d hd
                · simp at hd; subst hd; decide
              · cases cur with
                | nil => simp
                | cons d cur => exact hh
              · intro m
                simp only [after, htl, List.length_append, List.length_cons, List.length_nil]
                have e1 : cur.length + (0 + 1) + m = cur.length + (1 + m) := by omega
                rw [e1]
              · rw [scan, if_neg (by omega), if_neg hB, if_neg (by decide), if_pos rfl]
            · refine step 1 rest' s 0 (cur ++ [c]) _ (by omega) (by simp; omega)
                (Good.text s (cur ++ [c]) _ (.line (cur ++ c :: l) :: ms') hi ?_ ⟨p1, p2, p3, p4, p5, p6⟩
                  ?_ hhead) ?_ ?_
              · rw [hz]; simp [wire, Msg.bytes]
              · intro d hd
                rcases List.mem_append.mp hd with hd | hd
                · exact hcur d hd
                · simp at hd; subst hd; exact ⟨hc10, hc4, h13⟩
              · intro m
                simp only [List.length_append, List.length_cons, List.length_nil]
                congr 1
                omega
              · rw [scan, if_neg (by omega), if_neg hB, if_neg hc4, if_neg h13, if_neg hc10]

end Laik.Tcp
