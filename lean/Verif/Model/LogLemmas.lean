import Verif.Model.Log
import Verif.Spec.Log
/-! # Log output: lines of a message -/

namespace Laik.Lg
open Laik Laik.LogSpec

theorem getD_lt {b : Bytes} {i : Nat} (h : i < b.length) : b.getD i 0 = b[i] := by
  simp [List.getD, List.getElem?_eq_getElem h]

theorem takeWhile_len_le {α : Type} (p : α → Bool) (l : List α) : (l.takeWhile p).length ≤ l.length :=
  (List.takeWhile_prefix p).length_le

theorem skip_le (b : Bytes) (off : Nat) (h : off ≤ b.length) : off ≤ skip b off ∧ skip b off ≤ b.length := by
  have := takeWhile_len_le (· == 32) (b.drop off)
  rw [List.length_drop] at this
  unfold skip; omega

theorem takeWhile_blank (l : Bytes) : l.takeWhile (· == 32) = List.replicate (l.takeWhile (· == 32)).length 32 := by
  induction l with
  | nil => rfl
  | cons a l ih =>
    rw [List.takeWhile_cons]
    split
    · rename_i h
      have : a = 32 := by simpa using h
      subst this
      rw [List.length_cons, List.replicate_succ, ← ih]
    · rfl

theorem skip_take (b : Bytes) (off : Nat) :
    b.drop off = List.replicate (skip b off - off) 32 ++ b.drop (skip b off) := by
  have h : skip b off - off = ((b.drop off).takeWhile (· == 32)).length := by unfold skip; omega
  rw [h, ← takeWhile_blank]
  conv => lhs; rw [← List.takeWhile_append_dropWhile (p := (· == 32)) (l := b.drop off)]
  congr 1
  unfold skip
  have h2 := congrArg (List.drop ((b.drop off).takeWhile (· == 32)).length) (List.takeWhile_append_dropWhile (p := (· == 32)) (l := b.drop off))
  rw [List.drop_left, List.drop_drop] at h2
  exact h2

theorem skip_stop (b : Bytes) (off : Nat) (h : skip b off < b.length) : b.getD (skip b off) 0 ≠ 32 := by
  intro he
  have h1 := skip_take b off
  have h2 : b.drop (skip b off) = 32 :: b.drop (skip b off + 1) := by
    rw [List.drop_eq_getElem_cons h]
    congr 1
    rw [getD_lt h] at he
    exact he
  have h3 : skip b off - off = ((b.drop off).takeWhile (· == 32)).length := by unfold skip; omega
  have h4 : (b.drop off).takeWhile (· == 32) = List.replicate (skip b off - off) 32 ++ 32 :: (b.drop (skip b off + 1)).takeWhile (· == 32) := by
    conv => lhs; rw [h1, h2]
    rw [List.takeWhile_append_of_pos (by simp)]
    simp
  have h5 := congrArg List.length h4
  simp only [List.length_append, List.length_replicate, List.length_cons] at h5
  omega

/-- What the search for the end of a line delivers. -/
structure ScanOK (b : Bytes) (sp o1 : Nat) (r : Nat × Bool) : Prop where
  ge : o1 ≤ r.1
  le : r.1 ≤ b.length
  nonl : ∀ j, o1 ≤ j → j < r.1 → b.getD j 0 ≠ 10
  blanks : ∀ j, o1 ≤ j → j < r.1 → b.getD j 0 = 32 → sp + (j - o1) ≤ 100
  nl : r.2 = true → r.1 < b.length ∧ b.getD r.1 0 = 10
  nonl' : r.2 = false → r.1 < b.length → b.getD r.1 0 = 32 ∧
    ∃ e, r.1 ≤ e ∧ e < b.length ∧ 100 < sp + (e - o1) ∧ b.getD e 0 = 32 ∧
      ∀ j, r.1 < j → j < e → b.getD j 0 ≠ 32 ∧ b.getD j 0 ≠ 10

theorem scan_ok (b : Bytes) (sp o1 : Nat) :
    ∀ off lb, o1 ≤ off → off ≤ b.length →
      (∀ j, o1 ≤ j → j < off → b.getD j 0 ≠ 10) →
      (∀ j, o1 ≤ j → j < off → b.getD j 0 = 32 → sp + (j - o1) ≤ 100) →
      (lb ≠ 0 → o1 ≤ lb ∧ lb < off ∧ b.getD lb 0 = 32 ∧ ∀ j, lb < j → j < off → b.getD j 0 ≠ 32) →
      ScanOK b sp o1 (scan b sp o1 off lb) := by
  intro off lb
  induction off, lb using scan.induct b sp o1 with
  | case1 off lb hl h10 =>
    intro hge hle hnl hbl hlb
    unfold scan
    rw [if_pos hl, if_pos h10]
    exact ⟨hge, by simp; omega, hnl, hbl, fun _ => ⟨hl, h10⟩, fun h => by simp at h⟩
  | case2 off lb hl h10 h32 hlong =>
    intro hge hle hnl hbl hlb
    unfold scan
    rw [if_pos hl, if_neg h10, if_pos h32, if_pos hlong]
    by_cases hz : lb = 0
    · subst hz
      exact ⟨by simpa using hge, by simp; omega, by simpa using hnl, by simpa using hbl, by simp,
        fun _ _ => ⟨by simpa using h32, off, by simp, hl, hlong, h32, fun j h1 h2 => by simp at h1; omega⟩⟩
    · obtain ⟨a1, a2, a3, a4⟩ := hlb hz
      simp only [ne_eq, hz, not_false_eq_true, if_true]
      refine ⟨a1, ?_, ?_, ?_, by simp, fun _ _ => ⟨a3, off, ?_, hl, hlong, h32, ?_⟩⟩
      · simp only; omega
      · intro j h1 h2
        simp only at h2
        exact hnl j h1 (by omega)
      · intro j h1 h2
        simp only at h2
        exact hbl j h1 (by omega)
      · simp only; omega
      · intro j h1 h2
        simp only at h1
        exact ⟨a4 j h1 h2, hnl j (by omega) h2⟩
  | case3 off lb hl h10 h32 hlong ih =>
    intro hge hle hnl hbl hlb
    unfold scan
    rw [if_pos hl, if_neg h10, if_pos h32, if_neg hlong]
    refine ih (by omega) hl ?_ ?_ ?_
    · intro j h1 h2
      by_cases hj : j = off
      · rw [hj]; exact h10
      · exact hnl j h1 (by omega)
    · intro j h1 h2 h3
      by_cases hj : j = off
      · rw [hj]; omega
      · exact hbl j h1 (by omega) h3
    · intro _
      exact ⟨hge, by omega, h32, fun j h1 h2 => by omega⟩
  | case4 off lb hl h10 h32 ih =>
    intro hge hle hnl hbl hlb
    unfold scan
    rw [if_pos hl, if_neg h10, if_neg h32]
    refine ih (by omega) hl ?_ ?_ ?_
    · intro j h1 h2
      by_cases hj : j = off
      · rw [hj]; exact h10
      · exact hnl j h1 (by omega)
    · intro j h1 h2 h3
      by_cases hj : j = off
      · rw [hj] at h3; exact absurd h3 h32
      · exact hbl j h1 (by omega) h3
    · intro hz
      obtain ⟨a1, a2, a3, a4⟩ := hlb hz
      refine ⟨a1, by omega, a3, fun j h1 h2 => ?_⟩
      by_cases hj : j = off
      · rw [hj]; exact h32
      · exact a4 j h1 (by omega)
  | case5 off lb hl =>
    intro hge hle hnl hbl hlb
    unfold scan
    rw [if_neg hl]
    exact ⟨hge, hle, hnl, hbl, by simp, fun _ h => absurd h hl⟩

/-- The lines of a message, without prefix. -/
def parts (b : Bytes) : (fuel off1 spaces : Nat) → (nl : Bool) → List Line
  | 0, _, _, _ => []
  | fuel + 1, off1, spaces, nl =>
    if off1 < b.length then
      let off1' := if nl then skip b off1 else off1
      let spaces := if nl then off1' - off1 else spaces
      let r := scan b spaces off1' off1' 0
      ⟨!nl, if nl then spaces else spaces + 4, (b.drop off1').take (r.1 - off1')⟩ ::
        parts b fuel (if r.1 < b.length then r.1 + 1 else r.1) spaces r.2
    else []

/-- A line as printed. -/
def render (h : Nat → Bytes) (k : Nat) (l : Line) : Bytes := h k ++ List.replicate l.indent 32 ++ l.text ++ [10]

/-- State of the loop: position, indentation of the line shown. -/
structure At (b : Bytes) (off1 : Nat) (newl : Bool) : Prop where
  le : off1 ≤ b.length
  fresh : newl = true → off1 = 0 ∨ b.getD (off1 - 1) 0 = 10

theorem at_next {b : Bytes} {sp o1 : Nat} {r : Nat × Bool} (h : ScanOK b sp o1 r) :
    At b (if r.1 < b.length then r.1 + 1 else r.1) r.2 := by
  have h1 := h.le
  refine ⟨by split <;> omega, fun hn => ?_⟩
  rw [if_pos (h.nl hn).1]
  exact Or.inr (h.nl hn).2

theorem scan_of_at {b : Bytes} {off1 : Nat} {nl : Bool} (h : At b off1 nl) (sp : Nat) :
    ScanOK b sp (if nl then skip b off1 else off1)
      (scan b sp (if nl then skip b off1 else off1) (if nl then skip b off1 else off1) 0) := by
  have hle := h.le
  have hs := skip_le b off1 hle
  exact scan_ok b sp _ _ 0 (Nat.le_refl _) (by split <;> omega) (fun j h1 h2 => by omega)
    (fun j h1 h2 => by omega) (fun h => absurd rfl h)

theorem mem_slice {b : Bytes} {o n x : Nat} (h : x ∈ (b.drop o).take n) (hn : o + n ≤ b.length) :
    ∃ j, o ≤ j ∧ j < o + n ∧ b.getD j 0 = x := by
  obtain ⟨i, hi, he⟩ := List.mem_iff_getElem.mp h
  rw [List.length_take, List.length_drop] at hi
  refine ⟨o + i, by omega, by omega, ?_⟩
  rw [List.getElem_take, List.getElem_drop] at he
  rw [getD_lt (by omega)]
  exact he

theorem slice_get {b : Bytes} {o n i : Nat} (hi : i < n) (hn : o + n ≤ b.length) :
    ((b.drop o).take n)[i]? = some (b.getD (o + i) 0) := by
  rw [List.getElem?_take_of_lt hi, List.getElem?_drop, getD_lt (by omega), List.getElem?_eq_getElem]

end Laik.Lg
