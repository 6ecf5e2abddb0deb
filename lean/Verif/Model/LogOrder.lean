import Verif.Model.Log
import Mathlib.Tactic.IntervalCases
/-! # Log output: order of prefixes -/

namespace Laik.Lg
open Laik

/-! ### Order of texts -/

theorem lt_append_left (p : Bytes) {a b : Bytes} (h : a < b) : p ++ a < p ++ b := by
  induction p with
  | nil => exact h
  | cons x p ih => exact List.Lex.cons ih

theorem lt_append_right {a b : Bytes} (hl : a.length = b.length) (h : a < b) (x y : Bytes) : a ++ x < b ++ y := by
  induction a generalizing b with
  | nil =>
    cases b with
    | nil => exact absurd h (List.lt_irrefl _)
    | cons _ _ => simp at hl
  | cons u a ih =>
    cases b with
    | nil => simp at hl
    | cons v b =>
      cases h with
      | rel h => exact List.Lex.rel h
      | cons h => exact List.Lex.cons (ih (by simpa using hl) h)

/-! ### Numbers with leading zeros -/

theorem dec_small {n : Nat} (h : n < 10) : dec n = [48 + n] := by
  unfold dec Codec.digits
  rw [if_pos h]
  have : (Codec.digitChar n).toNat = 48 + n := by
    unfold Codec.digitChar
    interval_cases n <;> rfl
  rw [List.map_cons, this]; rfl

theorem dec_big {n : Nat} (h : ¬ n < 10) : dec n = dec (n / 10) ++ [48 + n % 10] := by
  conv => lhs; unfold dec Codec.digits
  rw [if_neg h, List.map_append]
  have h2 := dec_small (n := n % 10) (by omega)
  unfold dec Codec.digits at h2
  rw [if_pos (by omega)] at h2
  rw [h2]; rfl

theorem dec_length : ∀ {w n : Nat}, n < 10 ^ (w + 1) → 1 ≤ (dec n).length ∧ (dec n).length ≤ w + 1 := by
  intro w
  induction w with
  | zero => intro n h; rw [dec_small (by simpa using h)]; simp
  | succ w ih =>
    intro n h
    by_cases hn : n < 10
    · rw [dec_small hn]; simp
    · rw [dec_big hn]
      have := ih (n := n / 10) (by rw [Nat.pow_succ] at h; omega)
      simp only [List.length_append, List.length_singleton]; omega

theorem dec0_one {n : Nat} (h : n < 10) : dec0 1 n = [48 + n] := by
  unfold dec0; rw [dec_small h]; rfl

theorem dec0_succ (w n : Nat) : dec0 (w + 2) n = dec0 (w + 1) (n / 10) ++ [48 + n % 10] := by
  unfold dec0
  by_cases hn : n < 10
  · rw [dec_small hn, show n / 10 = 0 by omega, dec_small (by omega), show n % 10 = n by omega]
    rw [show w + 2 - [48 + n].length = w + 1 by simp, show w + 1 - [48 + 0].length = w by simp, List.replicate_succ']
  · rw [dec_big hn, ← List.append_assoc]
    congr 3
    simp only [List.length_append, List.length_singleton]; omega

theorem dec0_length : ∀ {w n : Nat}, n < 10 ^ (w + 1) → (dec0 (w + 1) n).length = w + 1 := by
  intro w n h
  have := dec_length h
  unfold dec0
  rw [List.length_append, List.length_replicate]; omega

theorem dec0_lt : ∀ {w n m : Nat}, n < m → m < 10 ^ (w + 1) → dec0 (w + 1) n < dec0 (w + 1) m := by
  intro w
  induction w with
  | zero =>
    intro n m h hm
    rw [dec0_one (by omega), dec0_one (by omega)]
    exact List.Lex.rel (by omega)
  | succ w ih =>
    intro n m h hm
    rw [dec0_succ, dec0_succ]
    by_cases hq : n / 10 = m / 10
    · rw [hq]
      exact lt_append_left _ (List.Lex.rel (by omega))
    · have hm' : m / 10 < 10 ^ (w + 1) := by rw [Nat.pow_succ] at hm; omega
      refine lt_append_right ?_ (ih (by omega) hm') _ _
      rw [dec0_length (by omega), dec0_length hm']

/-! ### Keys of lines -/

/-- Prefix of a line from the name of the library up to the number of the line. -/
def key (c id m k : Nat) : Bytes :=
  txt "LAIK-" ++ (dec0 4 c ++ (txt "-L" ++ (dec0 2 id ++ (txt " " ++ (dec0 4 m ++ (txt "." ++ dec0 2 k))))))

theorem header_key (s : Log) (id mins : Nat) (secs : Bytes) (k : Nat) (hi : s.inst = some id) (hp : s.pre = 2) :
    ∃ t, (header s mins secs k).drop 3 = key s.ctr id s.counter k ++ t := by
  refine ⟨txt " " ++ (decB 2 mins ++ (txt ":" ++ (secs ++ (txt " | " ++ hdrLevel s.cur k)))), ?_⟩
  unfold header
  rw [List.append_assoc, List.drop_left' (show (hdrMark k).length = 3 by unfold hdrMark; split <;> rfl)]
  unfold hdrProc key
  rw [hi, hp]
  simp only [show ¬ (2 : Nat) = 1 by omega, if_false, if_true]
  simp only [List.append_assoc]

/-- Order of lines of one process: counter of phases, of messages and of lines. -/
theorem key_lt (id c m k c' m' k' : Nat) (x y : Bytes) (hc : c' < 10 ^ 4) (hm : m < 10 ^ 4) (hm' : m' < 10 ^ 4) (hk : k < 10 ^ 2)
    (hk' : k' < 10 ^ 2) (h : c < c' ∨ (c = c' ∧ (m < m' ∨ (m = m' ∧ k < k')))) :
    key c id m k ++ x < key c' id m' k' ++ y := by
  unfold key
  simp only [List.append_assoc]
  refine lt_append_left _ ?_
  rcases h with h | ⟨rfl, h⟩
  · exact lt_append_right (by rw [dec0_length (w := 3) (by omega), dec0_length (w := 3) (by omega)]) (dec0_lt h hc) _ _
  · refine lt_append_left _ (lt_append_left _ (lt_append_left _ (lt_append_left _ ?_)))
    rcases h with h | ⟨rfl, h⟩
    · exact lt_append_right (by rw [dec0_length (w := 3) (by omega), dec0_length (w := 3) (by omega)]) (dec0_lt h hm') _ _
    · exact lt_append_left _ (lt_append_left _ (lt_append_right
        (by rw [dec0_length (w := 1) (by omega), dec0_length (w := 1) (by omega)]) (dec0_lt h hk') _ _))

/-! ### Length of prefixes -/

theorem decB_length {w n : Nat} (h : n < 10 ^ (w + 1)) (v : Nat) : (decB v n).length ≤ max v (w + 1) := by
  have := dec_length h
  unfold decB
  rw [List.length_append, List.length_replicate]; omega

theorem dec0_length_le {w n : Nat} (h : n < 10 ^ (w + 1)) (v : Nat) : (dec0 v n).length ≤ max v (w + 1) := by
  have := dec_length h
  unfold dec0
  rw [List.length_append, List.length_replicate]; omega

/-- Numbers in prefixes of lines are small enough. -/
structure SmallNumbers (s : Log) (mins : Nat) (secs : Bytes) : Prop where
  ctr : s.ctr < 10 ^ 6
  counter : s.counter < 10 ^ 6
  inst : ∀ id, s.inst = some id → id < 10 ^ 6
  loc : ∀ l, s.loc = some l → l.length ≤ 40
  mins : mins < 10 ^ 4
  secs : secs.length ≤ 6

theorem hdrLevel_length (cur k : Nat) : (hdrLevel cur k).length ≤ 9 := by
  unfold hdrLevel levelStr
  split
  · simp
  · rename_i n hn
    have hn : n.length ≤ 7 := by
      split at hn
      · simp at hn; subst hn; decide
      · split at hn
        · simp at hn; subst hn; decide
        · split at hn
          · simp at hn; subst hn; decide
          · simp at hn
    have : (if k = 1 then n else []).length ≤ 7 := by split <;> simp [hn]
    simp only [strB, List.length_append, List.length_replicate]
    rw [show (txt ": ").length = 2 by decide]
    omega

theorem hdrProc_length {s : Log} {mins : Nat} {secs : Bytes} (h : SmallNumbers s mins secs) {k : Nat} (hk : k < 10 ^ 6) :
    (hdrProc s mins secs k).length ≤ 48 := by
  unfold hdrProc
  split
  · have : (s.loc.getD []).length ≤ 40 := by
      cases hl : s.loc with
      | none => simp
      | some l => simpa using h.loc l hl
    simp only [strB, List.length_append, List.length_replicate]
    rw [show (txt ": ").length = 2 by decide]
    omega
  · rename_i id hi
    have h4 := h.inst id hi
    have h5 := h.ctr
    have h6 := h.counter
    have h7 := h.secs
    have h8 := h.mins
    have a1 := dec0_length_le (w := 5) h4 2
    have a2 := dec0_length_le (w := 5) h5 4
    have a3 := dec0_length_le (w := 5) h6 4
    have a4 := dec0_length_le (w := 5) hk 2
    have a5 := decB_length (w := 3) h8 2
    split
    · simp only [List.length_append]
      rw [show (txt "L").length = 1 by decide, show (txt " | ").length = 3 by decide]
      omega
    · split
      · simp only [List.length_append]
        rw [show (txt "LAIK-").length = 5 by decide, show (txt " | ").length = 3 by decide, show (txt "-L").length = 2 by decide,
          show (txt " ").length = 1 by decide, show (txt ".").length = 1 by decide, show (txt ":").length = 1 by decide]
        omega
      · simp

theorem header_length {s : Log} {mins : Nat} {secs : Bytes} (h : SmallNumbers s mins secs) {k : Nat} (hk : k < 10 ^ 6) :
    (header s mins secs k).length ≤ 60 := by
  have h1 : (hdrMark k).length = 3 := by unfold hdrMark; split <;> rfl
  have h2 := hdrProc_length h hk
  have h3 := hdrLevel_length s.cur k
  unfold header
  rw [List.length_append, List.length_append]
  omega

end Laik.Lg
