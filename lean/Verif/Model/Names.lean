import Verif.Model.SpaceCodec
import Verif.Model.Layout
/-!
# Names of objects and other text written into memory of fixed size
-/

namespace Laik.Nm

open Codec Lay

/-- `sprintf` of a text into memory of `size` bytes.  `none`: writes after its end. -/
def sprintfTo (size : Nat) (s : List Char) : Option (List Char) := if s.length + 1 ≤ size then some s else none

/-- Objects whose names are made of a prefix and the number of objects before, and
the text given to `strdup` to get memory for the name. -/
inductive Obj
  | aseq | data | res | space | trans | type
  deriving DecidableEq, Repr

/-- Prefix and template: src/action.c 39-40, src/data.c 168-169 and 898-899, src/space.c
339-340 and 1581-1582, src/type.c 646-647. -/
def Obj.prefix : Obj → List Char
  | .aseq => "aseq-".toList
  | .data => "data-".toList
  | .res => "res-".toList
  | .space => "space-".toList
  | .trans => "trans-".toList
  | .type => "type-".toList

def Obj.template : Obj → List Char
  | .aseq => "aseq-0     ".toList
  | .data => "data-0     ".toList
  | .res => "res-0     ".toList
  | .space => "space-0     ".toList
  | .trans => "trans-0     ".toList
  | .type => "type-0     ".toList

/-- Name of an object with number `id` (not negative: no overflow of the counters). -/
def Obj.name (o : Obj) (id : Nat) : Option (List Char) := sprintfTo (o.template.length + 1) (o.prefix ++ digits id)

/-- Name of a partitioning, `laik_partitioning_new`, src/partitioning.c 249-251: `base` is
`none` for new partitionings (`laik_new_empty_partitioning`, 279-284), the name of the
original for clones (`laik_clone_empty_partitioning`, 287-291). -/
def partName (base : Option (List Char)) (id : Nat) : Option (List Char) :=
  sprintfTo ("            ".toList.length + 1) ((base.getD "part".toList).take 10 ++ '-' :: digits id)

/-- `describe_lex`, src/layout_lex.c 114-137: the text for entries from number `i` on.
Strides are not negative. -/
def stridesText : Nat → List LexEntry → List Char
  | _, [] => []
  | i, e :: es =>
    (if i = 0 then [] else ", ".toList) ++ digits e.s0.toNat ++ '/' :: digits e.s1.toNat ++ '/' :: digits e.s2.toNat ++ stridesText (i + 1) es

/-- `describe_lex`: `none` if the static buffer of 200 bytes is exceeded (the assert in
133 comes after the text was written). -/
def describeLex (l : LexLayout) : Option (List Char) :=
  sprintfTo 200 ("lex (".toList ++ digits l.dims.toNat ++ "d, ".toList ++ digits l.e.length ++ " maps, strides ".toList ++ stridesText 0 l.e ++ [')'])

/-- `laik_layout_describe_gen`, src/layout.c 222-228. -/
def describeGen (d : Dims) : Option (List Char) := sprintfTo 100 ("unspecified ".toList ++ digits d.toNat ++ ['d'])

theorem digits_length_gt (n k : Nat) (h : 10 ^ k ≤ n) : k < (digits n).length := by
  induction k generalizing n with
  | zero => exact List.length_pos_iff.2 (digits_ne_nil n)
  | succ k ih =>
    rw [digits]
    have h10 : 10 ^ (k + 1) = 10 ^ k * 10 := Nat.pow_succ ..
    have hp : 0 < 10 ^ k := Nat.pow_pos (by decide)
    rw [if_neg (by omega), List.length_append]
    have := ih (n / 10) (by omega)
    simp
    omega

theorem digits_length_iff (n k : Nat) (hk : 0 < k) : (digits n).length ≤ k ↔ n < 10 ^ k := by
  refine ⟨fun h => ?_, fun h => digits_length_le n k h hk⟩
  rcases Nat.lt_or_ge n (10 ^ k) with h' | h'
  · exact h'
  · have := digits_length_gt n k h'
    omega

theorem digits_inj {a b : Nat} (h : digits a = digits b) : a = b := by
  have h1 := digits_value a
  have h2 := digits_value b
  rw [h] at h1
  rw [h2] at h1
  simpa using h1.symm

theorem dash_split {s t : List Char} {a b : Nat} (h : s ++ '-' :: digits a = t ++ '-' :: digits b) : s = t ∧ a = b := by
  have key : ∀ {x y u v : List Char}, (∀ c ∈ x, c ≠ '-') → (∀ c ∈ y, c ≠ '-') → x ++ '-' :: u = y ++ '-' :: v → x = y ∧ u = v := by
    intro x
    induction x with
    | nil =>
      intro y u v _ hy e
      cases y with
      | nil => exact ⟨rfl, (List.cons.inj e).2⟩
      | cons c y => exact absurd (List.cons.inj e).1.symm (hy c List.mem_cons_self)
    | cons d x ih =>
      intro y u v hx hy e
      cases y with
      | nil => exact absurd (List.cons.inj e).1 (hx d List.mem_cons_self)
      | cons c y =>
        obtain ⟨e1, e2⟩ := List.cons.inj e
        obtain ⟨h1, h2⟩ := ih (fun c hc => hx c (List.mem_cons_of_mem _ hc)) (fun c hc => hy c (List.mem_cons_of_mem _ hc)) e2
        exact ⟨by rw [e1, h1], h2⟩
  have nd : ∀ n, ∀ c ∈ (digits n).reverse, c ≠ '-' := by
    intro n c hc e
    have := digits_all n c (List.mem_reverse.1 hc)
    rw [e] at this
    revert this
    decide
  have hr := congrArg List.reverse h
  simp only [List.reverse_append, List.reverse_cons, List.append_assoc, List.singleton_append] at hr
  obtain ⟨h1, h2⟩ := key (nd a) (nd b) hr
  exact ⟨List.reverse_inj.1 h2, digits_inj (List.reverse_inj.1 h1)⟩

theorem stridesText_1d : ∀ (es : List LexEntry) (i : Nat), 0 < i → (∀ e ∈ es, e.s0 = 1 ∧ e.s1 = 0 ∧ e.s2 = 0) →
    (stridesText i es).length = 7 * es.length := by
  intro es
  induction es with
  | nil => intro i _ _; rfl
  | cons e es ih =>
    intro i hi h
    obtain ⟨h1, h2, h3⟩ := h e List.mem_cons_self
    have h0 : (digits (Int.toNat 0)).length = 1 := by decide +kernel
    have h1' : (digits (Int.toNat 1)).length = 1 := by decide +kernel
    rw [stridesText, if_neg (by omega), h1, h2, h3]
    simp only [List.length_append, List.length_cons, h0, h1', ih (i + 1) (by omega) (fun e he => h e (List.mem_cons_of_mem _ he))]
    have : ", ".toList.length = 2 := by decide +kernel
    omega

end Laik.Nm
