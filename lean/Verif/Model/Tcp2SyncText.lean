import Verif.Model.Tcp2Sync
/-!
# Lemmas on `kvs` commands
-/

namespace Laik.Ks
open Laik

/-- Characters of a word: no white space, end of string, or Ctrl-D. -/
def WordC (c : Nat) : Prop := isWs c = false ∧ c ≠ 0 ∧ c ≠ 4

instance (c : Nat) : Decidable (WordC c) := by unfold WordC; infer_instance

/-- Characters of a line. -/
def LineC (c : Nat) : Prop := c ≠ 0 ∧ c ≠ 4 ∧ c ≠ 10 ∧ c ≠ 13

instance (c : Nat) : Decidable (LineC c) := by unfold LineC; infer_instance

theorem WordC.line {c : Nat} (h : WordC c) : LineC c := by
  obtain ⟨h1, h2, h3⟩ := h
  refine ⟨h2, h3, ?_, ?_⟩ <;> rintro rfl <;> simp [isWs] at h1

/-- A line without special characters is sent as it is. -/
theorem wireLines_line {m : Bytes} (h : ∀ c ∈ m, LineC c) (hb : m.head? ≠ some 66) : wireLines m = some [m] := by
  have h10 : 10 ∉ m := fun hm => (h 10 hm).2.2.1 rfl
  have h4 : 4 ∉ m := fun hm => (h 4 hm).2.1 rfl
  have hl : m.getLast? ≠ some 10 := fun hm => h10 (List.mem_of_getLast? hm)
  have hc : m.map (fun c => if c = 13 then 32 else c) = m := by
    conv_rhs => rw [← List.map_id m]
    apply List.map_congr_left
    intro c hm
    rw [if_neg (h c hm).2.2.2]
    rfl
  unfold wireLines
  simp only [if_neg hl, List.splitOn_eq_singleton h10, List.map_cons, List.map_nil, hc]
  rw [if_neg]
  rintro (h | h)
  · exact h4 h
  · simp at h
    exact hb h

theorem dropWhile_word {w r : Bytes} (hw : ∀ c ∈ w, isWs c = false) (h0 : w ≠ []) : (w ++ r).dropWhile isWs = w ++ r := by
  cases w with
  | nil => exact absurd rfl h0
  | cons a w => rw [List.cons_append, List.dropWhile_cons_of_neg (by rw [hw a (by simp)]; simp)]

theorem takeWhile_word {w r : Bytes} (hw : ∀ c ∈ w, isWs c = false) (hr : ∀ c ∈ r.head?, isWs c = true) :
    (w ++ r).takeWhile (fun c => !isWs c) = w := by
  rw [List.takeWhile_append_of_pos (by intro c hc; rw [hw c hc]; rfl)]
  cases r with
  | nil => simp
  | cons a r => rw [List.takeWhile_cons_of_neg (by rw [hr a (by simp)]; simp), List.append_nil]

theorem scanWord_word {n : Nat} {w r : Bytes} (hw : ∀ c ∈ w, isWs c = false) (h0 : w ≠ []) (hn : w.length ≤ n)
    (hr : ∀ c ∈ r.head?, isWs c = true) : scanWord n (w ++ r) = some (w, r) := by
  unfold scanWord
  simp only [dropWhile_word hw h0, takeWhile_word hw hr, List.take_of_length_le hn, if_neg h0, List.drop_left]

theorem scanWord_blank (n : Nat) (s : Bytes) : scanWord n (32 :: s) = scanWord n s := by
  unfold scanWord
  rw [List.dropWhile_cons_of_pos (by decide)]

theorem scanLine_line {n : Nat} {v : Bytes} (hv : ∀ c ∈ v, c ≠ 10) (h0 : v ≠ []) (hn : v.length ≤ n) :
    scanLine n v = some v := by
  have : v.takeWhile (fun c => c != 10) = v := by
    have := List.takeWhile_append_of_pos (p := fun c => c != 10) (l₁ := v) (l₂ := []) (by
      intro c hc
      simpa using hv c hc)
    simpa using this
  unfold scanLine
  simp only [this, List.take_of_length_le hn, if_neg h0]

theorem ofNat_toNat_digits (n : Nat) : ((Codec.digits n).map Char.toNat).map Char.ofNat = Codec.digits n := by
  rw [List.map_map]
  conv_rhs => rw [← List.map_id (Codec.digits n)]
  apply List.map_congr_left
  intro c _
  exact Char.ofNat_toNat c

theorem scanInt_digits_end (n : Nat) : Codec.scanInt (Codec.digits n) = some ((n : Int), []) := by
  unfold Codec.scanInt
  have hv : Codec.scanDigits 0 (Codec.digits n) = (n, []) := by
    have := Codec.scanDigits_append 0 (Codec.digits n) [] (Codec.digits_all n)
    rw [List.append_nil, Codec.digits_value] at this
    exact this
  cases hd : Codec.digits n with
  | nil => exact absurd hd (Codec.digits_ne_nil n)
  | cons c cs =>
    have hc : Codec.isDigit c = true := Codec.digits_all n c (by rw [hd]; simp)
    rw [hd] at hv
    have hs : List.dropWhile Codec.isSpace (c :: cs) = c :: cs := by
      simp [List.dropWhile_cons, Codec.isSpace_false_of_digit c hc]
    have h1 : c ≠ '-' := by intro h; subst h; revert hc; decide
    have h2 : c ≠ '+' := by intro h; subst h; revert hc; decide
    simp only [hs, Codec.scanSign, h1, h2, if_false, hc, if_true] at *
    simp [hv]

theorem digits_line (n : Nat) : ∀ c ∈ (Codec.digits n).map Char.toNat, LineC c := by
  intro c hc
  rw [List.mem_map] at hc
  obtain ⟨d, hd, rfl⟩ := hc
  have := Codec.digits_all n d hd
  simp only [Codec.isDigit, Bool.and_eq_true, decide_eq_true_eq] at this
  unfold LineC
  omega

/-! ### The commands -/

/-- Name of a store which can be sent. -/
structure NameOK (nm : Bytes) : Prop where
  ne : nm ≠ []
  len : nm.length ≤ 29
  chr : ∀ c ∈ nm, WordC c

/-- Key and string which can be sent. -/
structure PairOK (k v : Bytes) : Prop where
  ne : k ≠ []
  len : k.length ≤ 30
  chr : ∀ c ∈ k, WordC c
  vne : v ≠ []
  vchr : ∀ c ∈ v, LineC c
  vhead : ∀ c ∈ v.head?, isWs c = false
  total : k.length + v.length ≤ 89

def allowLine (nm : Bytes) : Bytes := [107, 118, 115, 32, 97, 108, 108, 111, 119, 32] ++ nm

def dataLine (k v : Bytes) : Bytes := [107, 118, 115, 32, 100, 97, 116, 97, 32] ++ (k ++ 32 :: v)

def changesLine (n : Nat) : Bytes :=
  [107, 118, 115, 32, 99, 104, 97, 110, 103, 101, 115, 32] ++ (Codec.digits n).map Char.toNat

theorem txt_allow : txt "kvs allow " = [107, 118, 115, 32, 97, 108, 108, 111, 119, 32] := by decide
theorem txt_data : txt "kvs data " = [107, 118, 115, 32, 100, 97, 116, 97, 32] := by decide
theorem txt_changes : txt "kvs changes " = [107, 118, 115, 32, 99, 104, 97, 110, 103, 101, 115, 32] := by decide

theorem allow_sent {nm : Bytes} (h : NameOK nm) : (allowMsg nm).bind wireLines = some [allowLine nm] := by
  have hl := h.len
  unfold allowMsg fits
  rw [txt_allow, if_pos (by simp; omega)]
  exact wireLines_line (by
    intro c hc
    rcases List.mem_append.1 hc with hc | hc
    · clear * - hc; revert c; decide
    · exact (h.chr c hc).line) (by simp)

theorem changes_sent (n : Nat) : wireLines (changesMsg n) = some [changesLine n] := by
  unfold changesMsg
  rw [txt_changes]
  exact wireLines_line (by
    intro c hc
    rcases List.mem_append.1 hc with hc | hc
    · clear * - hc; revert c; decide
    · exact digits_line n c hc) (by simp)

theorem cstr_nul {v : Bytes} (h : 0 ∉ v) : cstr (v ++ [0]) = some v := by
  unfold cstr
  rw [if_pos (by simp), List.takeWhile_append_of_pos (by
    intro c hc
    simp only [bne_iff_ne]
    rintro rfl
    exact h hc)]
  simp

theorem data_sent {k v : Bytes} (h : PairOK k v) (e : KEnt) (hk : e.key = k) (hv : e.value = some (v ++ [0])) :
    (dataMsg e).bind wireLines = some [dataLine k v] := by
  have hl := h.total
  unfold dataMsg fits
  rw [hv, Option.bind_some, cstr_nul (fun h0 => (h.vchr 0 h0).1 rfl), Option.bind_some, hk, txt_data,
    if_pos (by simp; omega)]
  exact wireLines_line (by
    intro c hc
    rcases List.mem_append.1 hc with hc | hc
    · clear * - hc; revert c; decide
    · rcases List.mem_append.1 hc with hc | hc
      · exact (h.chr c hc).line
      · rcases List.mem_cons.1 hc with rfl | hc
        · decide
        · exact h.vchr c hc) (by simp)

theorem got_allow {nm : Bytes} (h : NameOK nm) (P : Proc) (hP : P.name = none) :
    gotCmd P 0 (allowLine nm) = some { P with name := some nm, exit := true } := by
  have h1 : scanWord 20 ([97, 108, 108, 111, 119] ++ (32 :: nm)) = some ([97, 108, 108, 111, 119], 32 :: nm) :=
    scanWord_word (by decide) (by decide) (by decide) (by simp [isWs])
  have h2 : scanWord 29 (nm ++ []) = some (nm, []) :=
    scanWord_word (fun c hc => (h.chr c hc).1) h.ne h.len (by simp)
  rw [List.append_nil] at h2
  show gotAllow P 0 ([97, 108, 108, 111, 119] ++ (32 :: nm)) = _
  unfold gotAllow
  rw [h1]
  simp only [Option.bind_some, scanWord_blank, h2, hP]
  rfl

theorem got_changes (n lid : Nat) (P : Proc) (hP : P.kvs ≠ none) (hc : P.chg = -1) (hr : P.rcv = 0) :
    gotCmd P lid (changesLine n) =
      some { P with chg := (n : Int), exit := if n = 0 then true else P.exit } := by
  have h1 : scanWord 20 ([99, 104, 97, 110, 103, 101, 115] ++ (32 :: (Codec.digits n).map Char.toNat)) =
      some ([99, 104, 97, 110, 103, 101, 115], 32 :: (Codec.digits n).map Char.toNat) :=
    scanWord_word (by decide) (by decide) (by decide) (by simp [isWs])
  have h2 : scanD (32 :: (Codec.digits n).map Char.toNat) = some (n : Int) := by
    unfold scanD
    rw [List.map_cons, ofNat_toNat_digits]
    have hb : Codec.scanInt (Char.ofNat 32 :: Codec.digits n) = Codec.scanInt (Codec.digits n) := by
      unfold Codec.scanInt
      rw [List.dropWhile_cons_of_pos (by decide)]
    rw [hb, scanInt_digits_end]
    rfl
  show gotChanges P ([99, 104, 97, 110, 103, 101, 115] ++ (32 :: (Codec.digits n).map Char.toNat)) = _
  unfold gotChanges
  rw [h1]
  simp only [Option.bind_some, h2]
  rw [if_pos ⟨hP, hc, hr⟩]
  simp

/-- What a data line does. -/
def stored (P : Proc) (i : Nat) (k : Bytes) (s : KVS) : Proc :=
  { setStore P i (markUpd s k) with
    rcv := P.rcv + 1, exit := if ((P.rcv + 1 : Nat) : Int) = P.chg then true else P.exit }

theorem got_data {k v : Bytes} (h : PairOK k v) (lid : Nat) (P : Proc) {i : Nat} (hP : P.kvs = some i)
    (hc : (P.rcv : Int) < P.chg) {s : KVS} (hs : kvsSet (P.st i) k (v ++ [0]) = some s) :
    gotCmd P lid (dataLine k v) = some (stored P i k s) := by
  have h1 : scanWord 20 ([100, 97, 116, 97] ++ (32 :: (k ++ 32 :: v))) =
      some ([100, 97, 116, 97], 32 :: (k ++ 32 :: v)) :=
    scanWord_word (by decide) (by decide) (by decide) (by simp [isWs])
  have h2 : scanWord 30 (k ++ 32 :: v) = some (k, 32 :: v) :=
    scanWord_word (fun c hc => (h.chr c hc).1) h.ne h.len (by simp [isWs])
  have h3 : (32 :: v).dropWhile isWs = v := by
    rw [List.dropWhile_cons_of_pos (by decide)]
    cases v with
    | nil => rfl
    | cons a v => rw [List.dropWhile_cons_of_neg (by rw [h.vhead a (by simp)]; simp)]
  have hl := h.total
  have h4 : scanLine 100 v = some v :=
    scanLine_line (fun c hc => (h.vchr c hc).2.2.1) h.vne (by omega)
  show gotData P ([100, 97, 116, 97] ++ (32 :: (k ++ 32 :: v))) = _
  unfold gotData
  rw [h1]
  simp only [Option.bind_some, scanWord_blank, h2, h3, h4, Option.map_some, hP]
  rw [if_pos ⟨by omega, hc⟩]
  unfold kvsSets
  rw [hs]
  rfl

end Laik.Ks
