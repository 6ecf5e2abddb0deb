import Verif.Model.Types
import Verif.Spec.Reduce
/-!
# C35, C36: neutral elements and order independence of reductions
-/

namespace Laik
open Ty

/-! ### C35 -/

/-- A value is neutral for an operation. -/
def NeutralFor (t : IType) (o : Op) (v : Val t) : Prop :=
  ∀ x, red1 t o v x = some x ∧ red1 t o x v = some x

theorem sadd_zero (w : Nat) (x : BitVec w) :
    BitVec.saddOverflow 0#w x = false ∧ BitVec.saddOverflow x 0#w = false := by
  have h1 := BitVec.toInt_lt (x := x)
  have h2 := BitVec.le_toInt (x := x)
  simp [BitVec.saddOverflow]
  omega

theorem smul_one (w : Nat) (hw : 1 < w) (x : BitVec w) :
    BitVec.smulOverflow 1#w x = false ∧ BitVec.smulOverflow x 1#w = false := by
  have h1 := BitVec.toInt_lt (x := x)
  have h2 := BitVec.le_toInt (x := x)
  have h3 : (1#w).toInt = 1 := BitVec.toInt_one hw
  simp [BitVec.smulOverflow, h3]
  omega

/-- **C35, partial** The initial value is neutral for Sum, Prod, And, Or on all
integer types.  Missing (false of the code): Min and Max, see
`C35_minmax_wrong`. -/
theorem C35_neutral_partial (t : IType) (o : Op) (ho : o ≠ .min ∧ o ≠ .max) :
    NeutralFor t o (initVal t o) := by
  intro x
  have hw : 1 < t.width := by cases t <;> decide
  cases o
  · have := sadd_zero _ x
    simp [red1, initVal, this]
  · have := smul_one _ hw x
    simp [red1, initVal, this]
  · exact absurd rfl ho.1
  · exact absurd rfl ho.2
  · simp [red1, initVal]
  · simp [red1, initVal]

/-- The number a value stands for. -/
def key (t : IType) (v : Val t) : Int := if t.signed then v.toInt else v.toNat

theorem lt_iff_key (t : IType) (x y : Val t) : Ty.lt t x y = true ↔ key t x < key t y := by
  unfold Ty.lt key
  cases t.signed
  · simp [BitVec.ult]
  · simp [BitVec.slt]

theorem key_inj {t : IType} {x y : Val t} (h : key t x = key t y) : x = y := by
  unfold key at h
  cases hs : t.signed
  · simp [hs] at h; exact BitVec.eq_of_toNat_eq (by omega)
  · simp [hs] at h; exact BitVec.eq_of_toInt_eq h

theorem key_min (t : IType) (x : Val t) : key t (initVal t .min) ≤ key t x := by
  unfold key initVal
  cases hs : t.signed
  · simp
  · simp only [if_true]
    have h1 := BitVec.le_toInt (x := x)
    have h2 := BitVec.toInt_lt (x := x)
    cases t <;> simp only [IType.signed, Bool.false_eq_true] at hs <;>
      simp only [IType.width, IType.bytes] at h1 h2 ⊢
    · rw [show (BitVec.intMin (8 * 1)).toInt = -128 by decide]; omega
    · rw [show (BitVec.intMin (8 * 4)).toInt = -2147483648 by decide]; omega
    · rw [show (BitVec.intMin (8 * 8)).toInt = -9223372036854775808 by decide]; omega

theorem key_max (t : IType) (x : Val t) : key t x ≤ key t (initVal t .max) := by
  unfold key initVal
  cases hs : t.signed
  · have h2 := x.isLt
    cases t <;> simp only [IType.signed, Bool.true_eq_false] at hs <;>
      simp only [IType.width, IType.bytes] at h2 ⊢ <;> simp <;> omega
  · simp only [if_true]
    have h1 := BitVec.le_toInt (x := x)
    have h2 := BitVec.toInt_lt (x := x)
    cases t <;> simp only [IType.signed, Bool.false_eq_true] at hs <;>
      simp only [IType.width, IType.bytes] at h1 h2 ⊢
    · rw [show (BitVec.intMax (8 * 1)).toInt = 127 by decide]; omega
    · rw [show (BitVec.intMax (8 * 4)).toInt = 2147483647 by decide]; omega
    · rw [show (BitVec.intMax (8 * 8)).toInt = 9223372036854775807 by decide]; omega

/-- **C35 fails** of the code for Min and Max, for every integer type: the
values are swapped.  Reducing with the initial value always gives the initial
value, whatever the other input is. -/
theorem C35_minmax_wrong (t : IType) (o : Op) (ho : o = .min ∨ o = .max) (x : Val t) :
    red1 t o (initVal t o) x = some (initVal t o) ∧
    red1 t o x (initVal t o) = some (initVal t o) := by
  rcases ho with rfl | rfl
  · have h := key_min t x
    have h1 : Ty.lt t x (initVal t .min) = false := by
      rw [← Bool.not_eq_true, lt_iff_key]; omega
    simp only [red1, h1, Bool.false_eq_true, if_false, and_true, Option.some.injEq]
    split
    · rfl
    · rename_i hn
      rw [lt_iff_key] at hn
      exact key_inj (by omega)
  · have h := key_max t x
    have h1 : Ty.lt t (initVal t .max) x = false := by
      rw [← Bool.not_eq_true, lt_iff_key]; omega
    simp only [red1, h1, Bool.false_eq_true, if_false, and_true, Option.some.injEq]
    split
    · rfl
    · rename_i hn
      rw [lt_iff_key] at hn
      exact key_inj (by omega)

/-- **C35** The other of the two values would be neutral. -/
theorem C35_minmax_swapped (t : IType) :
    NeutralFor t .min (initVal t .max) ∧ NeutralFor t .max (initVal t .min) := by
  constructor
  · intro x
    have h := key_max t x
    have h1 : Ty.lt t (initVal t .max) x = false := by
      rw [← Bool.not_eq_true, lt_iff_key]; omega
    simp only [red1, h1, Bool.false_eq_true, if_false, true_and, Option.some.injEq]
    split
    · rfl
    · rename_i hn
      rw [lt_iff_key] at hn
      exact key_inj (by omega)
  · intro x
    have h := key_min t x
    have h1 : Ty.lt t x (initVal t .min) = false := by
      rw [← Bool.not_eq_true, lt_iff_key]; omega
    simp only [red1, h1, Bool.false_eq_true, if_false, Option.some.injEq]
    split
    · exact ⟨trivial, rfl⟩
    · rename_i hn
      rw [lt_iff_key] at hn
      have : initVal t .min = x := key_inj (by omega)
      exact ⟨trivial, this⟩

/-- Hence the statement as given does not hold. -/
theorem C35_neutral_false : ¬ ∀ (t : IType) (o : Op), NeutralFor t o (initVal t o) := by
  intro h
  exact absurd (h .uchar .min 5).1 (by decide)

theorem initLoop_spec (t : IType) (o : Op) (base : Int) : ∀ (n : Nat) (i : Int) (mem : Int → Val t)
    (a : Int), initLoop t o base n i mem a =
      if base + i ≤ a ∧ a < base + i + n then initVal t o else mem a := by
  intro n
  induction n with
  | zero => intro i mem a; rw [if_neg (by omega)]; rfl
  | succ n ih =>
    intro i mem a
    simp only [initLoop]
    rw [ih]
    by_cases h : a = base + i
    · subst h; rw [if_neg (by omega), if_pos rfl, if_pos (by omega)]
    · by_cases h2 : base + (i + 1) ≤ a ∧ a < base + (i + 1) + n
      · rw [if_pos h2, if_pos (by omega)]
      · rw [if_neg h2, if_neg h, if_neg (by omega)]

/-- **C35** Exactly the given elements are initialized. -/
theorem C35_init_range (t : IType) (o : Op) (base : Int) (count : Nat) (mem : Int → Val t) (a : Int) :
    initLoop t o base count 0 mem a =
      if base ≤ a ∧ a < base + count then initVal t o else mem a := by
  rw [initLoop_spec]
  simp

/-- What a reduction without inputs should leave in memory: the bytes of the
initial value of the type in each element. -/
def NoInputOK (t : IType) (o : Op) : Prop :=
  ∀ (count : Nat) (out : Int) (mem : Int → BitVec 8) (k j : Nat), k < count → j < t.bytes →
    redNoInput o count out mem (out + k * t.bytes + j) = byteOf t (initVal t o) j

/-- **C35, partial** A reduction without any input gives the initial value, for
`char`, and for `uchar` with other operations than Min, Max.  Missing (false of
the code): the other types, as `laik_char_init` is called for them, see
`C35_no_input_wrong`. -/
theorem C35_no_input_partial (t : IType) (o : Op)
    (h : t = .char ∨ (t = .uchar ∧ o ≠ .min ∧ o ≠ .max)) : NoInputOK t o := by
  intro count out mem k j hk hj
  unfold redNoInput
  have hb : t.bytes = 1 := by rcases h with rfl | ⟨rfl, _⟩ <;> rfl
  rw [hb] at hj ⊢
  rw [if_pos (by omega)]
  have : j = 0 := by omega
  subst this
  rcases h with rfl | ⟨rfl, h1, h2⟩
  · cases o <;> decide
  · cases o <;> first | decide | exact absurd rfl h1 | exact absurd rfl h2

/-- **C35 fails** for a reduction without inputs: for each multi-byte type and
each operation, and for `uchar` with Min or Max. -/
theorem C35_no_input_wrong (t : IType) (o : Op)
    (h : (t ≠ .char ∧ t ≠ .uchar) ∨ (t = .uchar ∧ (o = .min ∨ o = .max))) : ¬ NoInputOK t o := by
  intro hn
  rcases h with ⟨h1, h2⟩ | ⟨rfl, h⟩
  · -- the last byte of a single element is not written
    have hb : 1 < t.bytes := by
      cases t <;> first | exact absurd rfl h1 | exact absurd rfl h2 | decide
    have := hn 1 0 (fun _ => byteOf t (initVal t o) 1 + 1) 0 1 (by omega) hb
    unfold redNoInput at this
    rw [if_neg (by omega)] at this
    generalize byteOf t (initVal t o) 1 = v at this
    have h3 := congrArg BitVec.toNat this
    simp at h3
    have := v.isLt
    omega
  · have := hn 1 0 (fun _ => 0) 0 0 (by omega) (by decide)
    rcases h with rfl | rfl <;> exact absurd this (by decide)

/-- **C35 fails** for floating point types with Min and Max: any value greater
than `-DBL_MAX` (smaller than `DBL_MAX`) is lost. -/
theorem C35_float_minmax_wrong {F : Type} (f : FloatOps F) (x : F) :
    (f.lt (f.neg f.maxv) x = true → fInit f .min = some (f.neg f.maxv) ∧
      fRed1 f .min (f.neg f.maxv) x = some (f.neg f.maxv)) ∧
    (f.lt x f.maxv = true → fInit f .max = some f.maxv ∧
      fRed1 f .max f.maxv x = some f.maxv) := by
  constructor
  · intro h; simp [fInit, fRed1, h]
  · intro h; simp [fInit, fRed1, h]

example : NeutralFor .int32 .prod (initVal .int32 .prod) := C35_neutral_partial _ _ (by decide)
example : red1 .int32 .prod (initVal .int32 .prod) (BitVec.ofInt _ (-7)) =
    some (BitVec.ofInt _ (-7)) := by decide

/-! ### C36 -/

/-- The total operation (with wrap-around). -/
def wop (t : IType) (o : Op) (x y : Val t) : Val t :=
  match o with
  | .sum => x + y
  | .prod => x * y
  | .or => x ||| y
  | .and => x &&& y
  | .min => if Ty.lt t x y then x else y
  | .max => if Ty.lt t y x then x else y

theorem red1_wop {t : IType} {o : Op} {x y r : Val t} (h : red1 t o x y = some r) :
    r = wop t o x y := by
  cases o <;> simp only [red1] at h <;> (try split at h) <;> simp_all [wop]

theorem wop_comm (t : IType) (o : Op) (x y : Val t) : wop t o x y = wop t o y x := by
  cases o <;> simp only [wop]
  · exact BitVec.add_comm ..
  · exact BitVec.mul_comm ..
  · by_cases h1 : Ty.lt t x y = true <;> by_cases h2 : Ty.lt t y x = true <;>
      simp only [h1, h2, if_true, if_false, Bool.false_eq_true]
    · rw [lt_iff_key] at h1 h2; omega
    · rw [lt_iff_key] at h1 h2; exact key_inj (by omega)
  · by_cases h1 : Ty.lt t x y = true <;> by_cases h2 : Ty.lt t y x = true <;>
      simp only [h1, h2, if_true, if_false, Bool.false_eq_true]
    · rw [lt_iff_key] at h1 h2; omega
    · rw [lt_iff_key] at h1 h2; exact key_inj (by omega)
  · exact BitVec.and_comm ..
  · exact BitVec.or_comm ..

theorem key_wop_min (t : IType) (x y : Val t) :
    key t (wop t .min x y) = min (key t x) (key t y) := by
  simp only [wop]
  split
  · rename_i h; rw [lt_iff_key] at h; omega
  · rename_i h; rw [lt_iff_key] at h; omega

theorem key_wop_max (t : IType) (x y : Val t) :
    key t (wop t .max x y) = max (key t x) (key t y) := by
  simp only [wop]
  split
  · rename_i h; rw [lt_iff_key] at h; omega
  · rename_i h; rw [lt_iff_key] at h; omega

theorem wop_assoc (t : IType) (o : Op) (x y z : Val t) :
    wop t o (wop t o x y) z = wop t o x (wop t o y z) := by
  cases o
  · simp only [wop]; exact BitVec.add_assoc ..
  · simp only [wop]; exact BitVec.mul_assoc ..
  · apply key_inj; simp only [key_wop_min]; omega
  · apply key_inj; simp only [key_wop_max]; omega
  · simp only [wop]; exact BitVec.and_assoc ..
  · simp only [wop]; exact BitVec.or_assoc ..

/-- Combination with an additional neutral element. -/
def wopO (t : IType) (o : Op) (x : Val t) : Option (Val t) → Option (Val t)
  | none => some x
  | some y => some (wop t o x y)

theorem wopO_comm (t : IType) (o : Op) (x y : Val t) (z : Option (Val t)) :
    wopO t o x (wopO t o y z) = wopO t o y (wopO t o x z) := by
  cases z with
  | none => simp [wopO, wop_comm t o x y]
  | some z => simp only [wopO, ← wop_assoc, wop_comm t o x y]

theorem eval_fold (t : IType) (o : Op) : ∀ (T : RTree (Val t)) (r : Val t),
    T.eval (red1 t o) = some r → ∀ acc, T.leaves.foldr (wopO t o) acc =
      wopO t o r acc := by
  intro T
  induction T with
  | leaf v => intro r h acc; simp [RTree.eval] at h; subst h; rfl
  | node a b iha ihb =>
    intro r h acc
    simp only [RTree.eval] at h
    cases ha : a.eval (red1 t o) with
    | none => rw [ha] at h; simp at h
    | some x =>
      cases hb : b.eval (red1 t o) with
      | none => rw [ha, hb] at h; simp at h
      | some y =>
        rw [ha, hb] at h
        simp only [RTree.leaves, List.foldr_append, ihb y hb, iha x ha]
        rw [red1_wop h]
        cases acc with
        | none => rfl
        | some z => simp only [wopO, wop_assoc]

/-- **C36, partial** Two reductions of the same inputs in different order and
grouping give the same result, whenever both are defined.  Missing (false by
the C standard): definedness for Sum and Prod of `int32_t`, `int64_t`, see
`C36_overflow_order`. -/
theorem C36_order_independent_partial (t : IType) (o : Op) (T U : RTree (Val t))
    (hp : T.leaves.Perm U.leaves) {x y : Val t} (hx : T.eval (red1 t o) = some x)
    (hy : U.eval (red1 t o) = some y) : x = y := by
  have h1 := eval_fold t o T x hx none
  have h2 := eval_fold t o U y hy none
  have h3 : T.leaves.foldr (wopO t o) none = U.leaves.foldr (wopO t o) none :=
    hp.foldr_eq' (fun a _ b _ z => wopO_comm t o b a z) none
  rw [h1, h2] at h3
  simpa [wopO] using h3

theorem eval_defined (t : IType) (o : Op) (h : t.ub = false ∨ (o ≠ .sum ∧ o ≠ .prod)) :
    ∀ T : RTree (Val t), ∃ r, T.eval (red1 t o) = some r := by
  intro T
  induction T with
  | leaf v => exact ⟨v, rfl⟩
  | node a b iha ihb =>
    obtain ⟨x, hx⟩ := iha
    obtain ⟨y, hy⟩ := ihb
    simp only [RTree.eval, hx, hy]
    rcases h with h | ⟨h1, h2⟩
    · cases o <;> simp [red1, h]
    · cases o <;> simp_all [red1]

/-- **C36** For the unsigned types and `char`, and for all types with Min, Max,
And, Or, all orders and groupings are defined and give the same result. -/
theorem C36_always_defined (t : IType) (o : Op) (h : t.ub = false ∨ (o ≠ .sum ∧ o ≠ .prod))
    (T U : RTree (Val t)) (hp : T.leaves.Perm U.leaves) :
    ∃ r, T.eval (red1 t o) = some r ∧ U.eval (red1 t o) = some r := by
  obtain ⟨x, hx⟩ := eval_defined t o h T
  obtain ⟨y, hy⟩ := eval_defined t o h U
  have := C36_order_independent_partial t o T U hp hx hy
  subst this
  exact ⟨x, hx, hy⟩

/-- Sum over `int32_t`, where one order overflows and another does not. -/
def overflowA : RTree (Val .int32) :=
  .node (.node (.leaf 0x7FFFFFFF) (.leaf 0xFFFFFFFF)) (.leaf 1)
def overflowB : RTree (Val .int32) :=
  .node (.node (.leaf 0x7FFFFFFF) (.leaf 1)) (.leaf 0xFFFFFFFF)

/-- **C36 fails** strictly by the C standard for Sum and Prod of `int32_t` and
`int64_t`: another order of the same inputs may overflow, which is undefined.
(With wrap-around instead, `wop_comm` and `wop_assoc` give independence.) -/
theorem C36_overflow_order :
    overflowA.leaves.Perm overflowB.leaves ∧
    overflowA.eval (red1 .int32 .sum) = some 0x7FFFFFFF ∧
    overflowB.eval (red1 .int32 .sum) = none := by
  refine ⟨?_, by decide, by decide⟩
  exact .cons _ (.swap _ _ _)

/-- **C36** With wrap-around on overflow (as `gcc -fwrapv`) there is no
exception. -/
theorem C36_wrap_around (t : IType) (o : Op) (T U : RTree (Val t))
    (hp : T.leaves.Perm U.leaves) :
    ∃ r, T.eval (fun x y => some (wop t o x y)) = some r ∧
      U.eval (fun x y => some (wop t o x y)) = some r := by
  have key : ∀ T : RTree (Val t), ∃ r, T.eval (fun x y => some (wop t o x y)) = some r ∧
      ∀ acc, T.leaves.foldr (wopO t o) acc = wopO t o r acc := by
    intro T
    induction T with
    | leaf v => exact ⟨v, rfl, fun _ => rfl⟩
    | node a b iha ihb =>
      obtain ⟨x, hx, hx'⟩ := iha
      obtain ⟨y, hy, hy'⟩ := ihb
      refine ⟨wop t o x y, by simp only [RTree.eval, hx, hy], fun acc => ?_⟩
      simp only [RTree.leaves, List.foldr_append, hy', hx']
      cases acc with
      | none => rfl
      | some z => simp only [wopO, wop_assoc]
  obtain ⟨x, hx, hx'⟩ := key T
  obtain ⟨y, hy, hy'⟩ := key U
  have h3 : T.leaves.foldr (wopO t o) none = U.leaves.foldr (wopO t o) none :=
    hp.foldr_eq' (fun a _ b _ z => wopO_comm t o b a z) none
  rw [hx', hy'] at h3
  simp only [wopO, Option.some.injEq] at h3
  subst h3
  exact ⟨x, hx, hy⟩

theorem redLoop_spec (t : IType) (o : Op) (out in1 in2 : Int) :
    ∀ (n : Nat) (i : Int) (mem mem' : Int → Val t),
      (∀ a b : Int, i ≤ a → a < i + n → i ≤ b → b < i + n → a ≠ b →
        out + a ≠ in1 + b ∧ out + a ≠ in2 + b) →
      redLoop t o out in1 in2 n i mem = some mem' →
      (∀ k, i ≤ k → k < i + n → red1 t o (mem (in1 + k)) (mem (in2 + k)) = some (mem' (out + k))) ∧
      ∀ a, ¬ (out + i ≤ a ∧ a < out + i + n) → mem' a = mem a := by
  intro n
  induction n with
  | zero =>
    intro i mem mem' _ h
    simp only [redLoop, Option.some.injEq] at h
    subst h
    exact ⟨fun k h1 h2 => by omega, fun _ _ => rfl⟩
  | succ n ih =>
    intro i mem mem' hal h
    simp only [redLoop] at h
    cases hr : red1 t o (mem (in1 + i)) (mem (in2 + i)) with
    | none => rw [hr] at h; simp at h
    | some v =>
      rw [hr] at h
      simp only at h
      obtain ⟨h1, h2⟩ := ih (i + 1) _ _ (fun a b ha ha' hb hb' hab =>
        hal a b (by omega) (by omega) (by omega) (by omega) hab) h
      constructor
      · intro k hk1 hk2
        by_cases hki : k = i
        · subst hki
          rw [h2 (out + k) (by omega), hr]
          simp
        · have := h1 k (by omega) (by omega)
          obtain ⟨n1, n2⟩ := hal i k (by omega) (by omega) (by omega) (by omega) (by omega)
          rw [if_neg (fun e => n1 e.symm), if_neg (fun e => n2 e.symm)] at this
          exact this
      · intro a ha
        rw [h2 a (by omega), if_neg (by omega)]

/-- **C36** The functions apply the operation element by element; the output
may be the same array as an input (as used by the backends), or separate. -/
theorem C36_elementwise (t : IType) (o : Op) (out in1 in2 : Int) (count : Nat)
    (mem mem' : Int → Val t)
    (h1 : out = in1 ∨ out + count ≤ in1 ∨ in1 + count ≤ out)
    (h2 : out = in2 ∨ out + count ≤ in2 ∨ in2 + count ≤ out)
    (h : redLoop t o out in1 in2 count 0 mem = some mem') :
    (∀ k : Nat, k < count →
      red1 t o (mem (in1 + k)) (mem (in2 + k)) = some (mem' (out + k))) ∧
    ∀ a, ¬ (out ≤ a ∧ a < out + count) → mem' a = mem a := by
  obtain ⟨g1, g2⟩ := redLoop_spec t o out in1 in2 count 0 mem mem' (fun a b _ _ _ _ hab =>
    ⟨by omega, by omega⟩) h
  exact ⟨fun k hk => g1 k (by omega) (by omega), fun a ha => g2 a (by omega)⟩

example : (redLoop .uchar .sum 0 0 10 2 0 (fun a => BitVec.ofInt 8 (7 * a))).map
    (fun m => (m 0, m 1, m 2)) = some (70, 84, 14) := by decide

/-- Inputs 200, 100, 3 of type `uchar` in two orders, with wrap-around. -/
example : ∃ r : Val .uchar, (RTree.node (.node (.leaf 200) (.leaf 100)) (.leaf 3)).eval
      (red1 .uchar .sum) = some r ∧
    (RTree.node (.leaf 3) (.node (.leaf 100) (.leaf 200))).eval (red1 .uchar .sum) = some r :=
  ⟨47, by decide, by decide⟩

/-! ### C45 -/

/-- **C45, partial** For Sum, Prod, Min and Max the operation used with MPI gives
the same result as the reduce function of the type.  Missing (false of the
code): And and Or, see `C45_mpi_logical`. -/
theorem C45_mpi_ops_partial (t : IType) (o : Op) (ho : o ≠ .and ∧ o ≠ .or) (x y : Val t) :
    mpiRed1 t o x y = red1 t o x y := by
  cases o <;> simp_all [mpiRed1]

/-- **C45 fails** for And and Or of every integer type: with MPI they are
logical, in `src/type.c` bitwise. -/
theorem C45_mpi_logical (t : IType) :
    red1 t .and 6 3 = some 2 ∧ mpiRed1 t .and 6 3 = some 1 ∧
    red1 t .or 4 2 = some 6 ∧ mpiRed1 t .or 4 2 = some 1 := by
  cases t <;> decide

/-- **C45** Both agree on truth values 0 and 1. -/
theorem C45_mpi_bool (t : IType) (o : Op) (x y : Val t) (hx : x = 0 ∨ x = 1) (hy : y = 0 ∨ y = 1) :
    mpiRed1 t o x y = red1 t o x y := by
  cases t <;> cases o <;> rcases hx with rfl | rfl <;> rcases hy with rfl | rfl <;> decide

example : mpiRed1 .int64 .min (BitVec.ofInt _ (-3)) 8 = some (BitVec.ofInt _ (-3)) := by decide

end Laik
