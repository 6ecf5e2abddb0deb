import Verif.Model.Range
/-!
# Model of space serialization (`src/space.c` 329-399, 417-459, 461-514)

Strings are lists of characters without the terminating NUL.
-/

namespace Laik.Codec

/-- One decimal digit as printed by `%ld`. -/
def digitChar (n : Nat) : Char := Char.ofNat (48 + n)

/-- Decimal digits of a natural number, most significant first. -/
def digits (n : Nat) : List Char :=
  if n < 10 then [digitChar n]
  else digits (n / 10) ++ [digitChar (n % 10)]
termination_by n

/-- `sprintf` with `PRId64`. -/
def printInt : Int → List Char
  | .ofNat n => digits n
  | .negSucc n => '-' :: digits (n + 1)

/-- `laik_space_serialize`, src/space.c 417-437.  (`dims` is always 1, 2 or 3
here, so `assert(off > 0)` holds.)  The 100 byte buffer is a separate
obligation, see `fits`. -/
def serialize (d : Dims) (b : Box) : List Char :=
  match d with
  | .d1 => ['1', '('] ++ printInt b.lo.x ++ ['/'] ++ printInt b.hi.x ++ [')']
  | .d2 => ['2', '('] ++ printInt b.lo.x ++ [','] ++ printInt b.lo.y ++ ['/'] ++
      printInt b.hi.x ++ [','] ++ printInt b.hi.y ++ [')']
  | .d3 => ['3', '('] ++ printInt b.lo.x ++ [','] ++ printInt b.lo.y ++ [','] ++
      printInt b.lo.z ++ ['/'] ++ printInt b.hi.x ++ [','] ++ printInt b.hi.y ++ [','] ++
      printInt b.hi.z ++ [')']

/-- `static char buf[100]` (src/space.c 419) holds the string and its NUL. -/
def fits (s : List Char) : Prop := s.length + 1 ≤ 100

def isDigit (c : Char) : Bool := 48 ≤ c.toNat && c.toNat ≤ 57

/-- White space skipped by `%ld` in `scanf` (C locale). -/
def isSpace (c : Char) : Bool := c == ' ' || (9 ≤ c.toNat && c.toNat ≤ 13)

/-- Read digits with an accumulator; returns value and rest. -/
def scanDigits (acc : Nat) : List Char → Nat × List Char
  | [] => (acc, [])
  | c :: cs => if isDigit c then scanDigits (10 * acc + (c.toNat - 48)) cs else (acc, c :: cs)

/-- Optional sign: is it negative, and the rest. -/
def scanSign : List Char → Bool × List Char
  | [] => (false, [])
  | c :: cs => if c = '-' then (true, cs) else if c = '+' then (false, cs) else (false, c :: cs)

/-- `%ld` conversion of `sscanf`: skip white space, optional sign, at least one
digit.  Overflow of 64 bits is not modelled. -/
def scanInt (s : List Char) : Option (Int × List Char) :=
  let sg := scanSign (s.dropWhile isSpace)
  match sg.2 with
  | [] => none
  | c :: cs =>
    if isDigit c then
      let vr := scanDigits 0 (c :: cs)
      some (if sg.1 then -(vr.1 : Int) else (vr.1 : Int), vr.2)
    else none

/-- Items of the `sscanf` formats used: a literal character or `%ld`. -/
inductive Item where
  | lit (c : Char)
  | int

/-- `sscanf` for such formats: the converted values in order; stops at the
first mismatch.  The C return value is the length of the list. -/
def sscanf : List Item → List Char → List Int
  | [], _ => []
  | .lit c :: fs, s =>
    match s with
    | c' :: s' => if c' = c then sscanf fs s' else []
    | [] => []
  | .int :: fs, s =>
    match scanInt s with
    | some (v, s') => v :: sscanf fs s'
    | none => []

def fmt1 : List Item := [.lit '(', .int, .lit '/', .int, .lit ')']
def fmt2 : List Item :=
  [.lit '(', .int, .lit ',', .int, .lit '/', .int, .lit ',', .int, .lit ')']
def fmt3 : List Item :=
  [.lit '(', .int, .lit ',', .int, .lit ',', .int, .lit '/',
   .int, .lit ',', .int, .lit ',', .int, .lit ')']

/-- State of a `Laik_Space` object: `dims` (0 = invalid), whether the member
`range.space` was set to the space itself (`laik_range_init_*d`) or is
uninitialised `malloc` memory, and the bounds. -/
structure SpaceObj where
  dims : Nat
  rangeSpaceSet : Bool
  box : Box
  deriving DecidableEq, Repr

/-- `laik_new_space`, src/space.c 330-352: `range` is not initialised at all
(`junk` is what `malloc` returned). -/
def newSpace (junk : Box) : SpaceObj := ⟨0, false, junk⟩

/-- `laik_new_space_1d/2d/3d`, src/space.c 355-399. -/
def newSpaceD (d : Dims) (s1 s2 s3 : Int) (junk : Box) : SpaceObj :=
  match d with
  | .d1 => ⟨1, true, ⟨⟨0, junk.lo.y, junk.lo.z⟩, ⟨s1, junk.hi.y, junk.hi.z⟩⟩⟩
  | .d2 => ⟨2, true, ⟨⟨0, 0, junk.lo.z⟩, ⟨s1, s2, junk.hi.z⟩⟩⟩
  | .d3 => ⟨3, true, ⟨⟨0, 0, 0⟩, ⟨s1, s2, s3⟩⟩⟩

/-- `laik_space_set`, src/space.c 439-459: return value and new state.  Values
converted before a mismatch are stored as `sscanf` does; on failure we only
keep `dims` (the rest of a half-parsed range is not used by any caller since
they assert success). -/
def spaceSet (s : SpaceObj) (v : List Char) : Bool × SpaceObj :=
  match v with
  | [] => (false, s)
  | c :: v =>
    if c.toNat < 49 ∨ c.toNat > 51 then (false, s)
    else
      let s := { s with dims := c.toNat - 48 }
      if s.dims = 1 then
        match sscanf fmt1 v with
        | [a, b] =>
          (true, { s with box := ⟨⟨a, s.box.lo.y, s.box.lo.z⟩, ⟨b, s.box.hi.y, s.box.hi.z⟩⟩ })
        | _ => (false, s)
      else if s.dims = 2 then
        match sscanf fmt2 v with
        | [a, b, c, e] => (true, { s with box := ⟨⟨a, b, s.box.lo.z⟩, ⟨c, e, s.box.hi.z⟩⟩ })
        | _ => (false, s)
      else
        match sscanf fmt3 v with
        | [a, b, c, e, f, g] => (true, { s with box := ⟨⟨a, b, c⟩, ⟨e, f, g⟩⟩ })
        | _ => (false, s)

/-- `laik_spacestore_get` for a key whose entry has no space object yet,
src/space.c 505-512, and likewise `update_space` 464-471: a fresh object is
created and set from the stored string; `none` is the failed assert. -/
def storeGetFresh (junk : Box) (v : List Char) : Option SpaceObj :=
  match spaceSet (newSpace junk) v with
  | (true, s) => some s
  | (false, _) => none

/-- `update_space` on an existing object, src/space.c 463, 470-471. -/
def storeUpdate (s : SpaceObj) (v : List Char) : Option SpaceObj :=
  match spaceSet s v with
  | (true, s) => some s
  | (false, _) => none

/-- Reading `range.space` of the space's own range, as done by
`laik_space_size`, `laik_range_within_space` and every partitioner that uses
`space->range`; `none` is a read of uninitialised memory. -/
def asRange (id : Nat) (s : SpaceObj) : Option Rng :=
  if s.rangeSpaceSet then
    match s.dims with
    | 1 => some ⟨some ⟨id, .d1, s.box⟩, s.box⟩
    | 2 => some ⟨some ⟨id, .d2, s.box⟩, s.box⟩
    | 3 => some ⟨some ⟨id, .d3, s.box⟩, s.box⟩
    | _ => none
  else none

/-! ### Helper lemmas -/

theorem digitChar_toNat (n : Nat) (h : n < 10) : (digitChar n).toNat = 48 + n := by
  unfold digitChar
  match n, h with
  | 0, _ => rfl
  | 1, _ => rfl
  | 2, _ => rfl
  | 3, _ => rfl
  | 4, _ => rfl
  | 5, _ => rfl
  | 6, _ => rfl
  | 7, _ => rfl
  | 8, _ => rfl
  | 9, _ => rfl

theorem isDigit_digitChar (n : Nat) (h : n < 10) : isDigit (digitChar n) = true := by
  simp [isDigit, digitChar_toNat n h]; omega

theorem scanDigits_append (acc : Nat) (s t : List Char) (h : ∀ c ∈ s, isDigit c = true) :
    scanDigits acc (s ++ t) =
      scanDigits (s.foldl (fun a c => 10 * a + (c.toNat - 48)) acc) t := by
  induction s generalizing acc with
  | nil => rfl
  | cons c s ih =>
    simp only [List.cons_append, scanDigits, List.foldl_cons]
    rw [if_pos (h c (by simp))]
    exact ih _ (fun c hc => h c (by simp [hc]))

theorem digits_all (n : Nat) : ∀ c ∈ digits n, isDigit c = true := by
  fun_induction digits n with
  | case1 n h => intro c hc; simp at hc; subst hc; exact isDigit_digitChar n h
  | case2 n h ih =>
    intro c hc
    simp only [List.mem_append, List.mem_singleton] at hc
    rcases hc with hc | hc
    · exact ih c hc
    · subst hc; exact isDigit_digitChar _ (by omega)

theorem digits_value (n : Nat) :
    (digits n).foldl (fun a c => 10 * a + (c.toNat - 48)) 0 = n := by
  fun_induction digits n with
  | case1 n h => simp [digitChar_toNat n h]
  | case2 n h ih =>
    rw [List.foldl_append, ih]
    simp [digitChar_toNat (n % 10) (by omega)]; omega

theorem digits_ne_nil (n : Nat) : digits n ≠ [] := by
  fun_induction digits n <;> simp

/-- Next character after a printed number, in all formats used. -/
def Stops (t : List Char) : Prop := ∃ c s, t = c :: s ∧ isDigit c = false

theorem scanDigits_stops (acc : Nat) (t : List Char) (h : Stops t) :
    scanDigits acc t = (acc, t) := by
  obtain ⟨c, s, rfl, hc⟩ := h
  simp [scanDigits, hc]

theorem isSpace_false_of_digit (c : Char) (h : isDigit c = true) : isSpace c = false := by
  simp only [isDigit, Bool.and_eq_true, decide_eq_true_eq] at h
  simp only [isSpace, Bool.or_eq_false_iff, Bool.and_eq_false_iff, decide_eq_false_iff_not]
  constructor
  · simp only [beq_eq_false_iff_ne, ne_eq]
    intro hc; subst hc; simp at h
  · omega

theorem scanInt_digits (n : Nat) (t : List Char) (ht : Stops t) :
    scanInt (digits n ++ t) = some ((n : Int), t) := by
  unfold scanInt
  have hv : scanDigits 0 (digits n ++ t) = (n, t) := by
    rw [scanDigits_append _ _ _ (digits_all n), digits_value, scanDigits_stops _ _ ht]
  cases hd : digits n with
  | nil => exact absurd hd (digits_ne_nil n)
  | cons c cs =>
    have hc : isDigit c = true := digits_all n c (by rw [hd]; simp)
    rw [hd] at hv
    have hs : List.dropWhile isSpace (c :: cs ++ t) = c :: cs ++ t := by
      simp [List.dropWhile_cons, isSpace_false_of_digit c hc]
    have h1 : c ≠ '-' := by intro h; subst h; revert hc; decide
    have h2 : c ≠ '+' := by intro h; subst h; revert hc; decide
    simp only [hs, List.cons_append, scanSign, h1, h2, if_false, hc, if_true] at *
    simp [hv]

theorem scanInt_printInt (v : Int) (t : List Char) (ht : Stops t) :
    scanInt (printInt v ++ t) = some (v, t) := by
  cases v with
  | ofNat n => exact scanInt_digits n t ht
  | negSucc n =>
    unfold scanInt
    simp only [printInt, List.cons_append]
    have hs : List.dropWhile isSpace ('-' :: (digits (n+1) ++ t)) = '-' :: (digits (n+1) ++ t) := by
      simp [show isSpace '-' = false from by decide]
    cases hd : digits (n+1) with
    | nil => exact absurd hd (digits_ne_nil _)
    | cons c cs =>
      have hc : isDigit c = true := digits_all (n+1) c (by rw [hd]; simp)
      have hv : scanDigits 0 (digits (n+1) ++ t) = (n+1, t) := by
        rw [scanDigits_append _ _ _ (digits_all _), digits_value, scanDigits_stops _ _ ht]
      rw [hd] at hv hs
      simp only [hs, List.cons_append, scanSign, if_true, hc] at *
      simp [hv]
      omega

theorem digits_length_le (n k : Nat) (h : n < 10 ^ k) (hk : 0 < k) : (digits n).length ≤ k := by
  induction k generalizing n with
  | zero => omega
  | succ k ih =>
    unfold digits
    split
    · simp
    · have hk' : 0 < k := by
        rcases Nat.eq_zero_or_pos k with rfl | h'
        · simp at h; omega
        · exact h'
      have : n / 10 < 10 ^ k := by
        rw [Nat.pow_succ] at h
        exact Nat.div_lt_of_lt_mul (by omega)
      have := ih (n / 10) this hk'
      simp; omega

theorem printInt_length_le (v : Int) (h1 : -(2^63) ≤ v) (h2 : v < 2^63) :
    (printInt v).length ≤ 20 := by
  cases v with
  | ofNat n =>
    have := digits_length_le n 19 (by simp at h2; omega) (by omega)
    simp only [printInt]; omega
  | negSucc n =>
    have := digits_length_le (n+1) 19 (by omega) (by omega)
    simp only [printInt, List.length_cons]; omega

end Laik.Codec
