import Mathlib.Data.List.Perm.Basic
import Verif.Model.CollSplit
/-!
# Numbers in reductions, groups of LAIK
-/

namespace Laik.Mm

open Function

theorem unle_lt (b : Body) : unle b < 256 ^ b.length := by
  induction b with
  | nil => simp [unle]
  | cons x l ih =>
    have := x.toNat_lt
    simp only [unle, List.length_cons, Nat.pow_succ]
    omega

theorem elem_lt (w : Nat) (b : Body) (j : Nat) : elem w b j < 256 ^ w := by
  refine Nat.lt_of_lt_of_le (unle_lt _) (Nat.pow_le_pow_right (by decide) ?_)
  simp

theorem addVec_elem (F : Flt) {ty : MTy} (h : ty ≠ .double ∧ ty ≠ .float) (n : Nat) : ∀ (a b : Body) (j : Nat),
    j < n → elem ty.bytes (addVec F ty n a b) j =
      (elem ty.bytes a j + elem ty.bytes b j) % 256 ^ ty.bytes := by
  have hadd : ∀ a b, addEl F ty a b = leN ty.bytes (unle a + unle b) := by
    intro a b
    cases ty with
    | double => exact absurd rfl h.1
    | float => exact absurd rfl h.2
    | _ => rfl
  induction n with
  | zero => intro a b j hj; omega
  | succ n ih =>
    intro a b j hj
    cases j with
    | zero =>
      simp only [elem, addVec, Nat.zero_mul, List.drop_zero]
      rw [List.take_left' (addEl_length ..), hadd, unle_leN]
    | succ j =>
      have := ih (a.drop ty.bytes) (b.drop ty.bytes) j (by omega)
      simp only [elem, List.drop_drop] at this ⊢
      have e : (j + 1) * ty.bytes = ty.bytes + j * ty.bytes := by rw [Nat.succ_mul, Nat.add_comm]
      rw [addVec, e, ← List.drop_drop, List.drop_left' (addEl_length ..)]
      exact this

theorem fold_elem (F : Flt) {ty : MTy} (h : ty ≠ .double ∧ ty ≠ .float) (n : Nat) (d : Nat → Body) {j : Nat}
    (hj : j < n) : ∀ (l : List Nat) (a : Body),
    elem ty.bytes (l.foldl (fun a p => addVec F ty n a (d p)) a) j =
      (elem ty.bytes a j + (l.map fun p => elem ty.bytes (d p) j).sum) % 256 ^ ty.bytes := by
  intro l
  induction l with
  | nil => intro a; simp [Nat.mod_eq_of_lt (elem_lt _ _ _)]
  | cons p l ih =>
    intro a
    simp only [List.foldl_cons, ih, addVec_elem F h n _ _ j hj, List.map_cons, List.sum_cons]
    rw [Nat.mod_add_mod, Nat.add_assoc]

theorem elem_take {w n j : Nat} (hj : j < n) (b : Body) : elem w (b.take (n * w)) j = elem w b j := by
  have : w ≤ n * w - j * w := by
    rw [← Nat.sub_mul]
    exact Nat.le_mul_of_pos_left _ (by omega)
  simp only [elem, List.drop_take, List.take_take, Nat.min_eq_left this]

theorem elem_put {s : PS} {x w n j : Nat} {a : Body} (hj : j < n) (ha : a.length = n * w) :
    elem w ((s.put x a).mem x) j = elem w a j := by
  rw [← elem_take hj, PS.put_take s x ha]

theorem fold_length (F : Flt) (ty : MTy) (n : Nat) (d : Nat → Body) : ∀ (l : List Nat) (a : Body),
    a.length = n * ty.bytes → (l.foldl (fun a p => addVec F ty n a (d p)) a).length = n * ty.bytes := by
  intro l
  induction l with
  | nil => exact fun a h => h
  | cons p l ih => exact fun a _ => ih _ (addVec_length ..)

/-- Value of an element after a reduction. -/
theorem reduce_elem {F : Flt} {c : Comm} {inp : Option Nat} {out n root R : Nat} {ty : MTy}
    (h : ty ≠ .double ∧ ty ≠ .float) {s t : Nat → PS}
    (he : evalReduce F c inp out n ty .sum root s = some t) (hR : c.tasks[root]? = some R) {j : Nat}
    (hj : j < n) : elem ty.bytes ((t R).mem out) j =
      (c.tasks.map fun q => elem ty.bytes ((s q).mem (inp.getD out)) j).sum % 256 ^ ty.bytes := by
  have hroot := (List.getElem?_eq_some_iff.mp hR)
  obtain ⟨hlt, hRe⟩ := hroot
  simp only [evalReduce, hR, true_or, if_true] at he
  split at he
  · rename_i hl
    obtain rfl := Option.some.inj he
    have hRm : R ∈ c.tasks := List.mem_of_getElem? hR
    have hlen : (((s R).mem (inp.getD out)).take (n * ty.bytes)).length = n * ty.bytes := by
      simp [hl.2 R hRm]
    rw [update_self, elem_put hj (fold_length _ _ _ _ _ _ hlen), fold_elem F h n _ hj]
    simp only [elem_take hj]
    have hp := (List.getElem_cons_eraseIdx_perm hlt).map fun q => elem ty.bytes ((s q).mem (inp.getD out)) j
    rw [← hp.sum_nat, List.map_cons, List.sum_cons, hRe]
  · cases he

/-! ### groups -/

/-- Ranks sorted by id in the new group. -/
theorem group_list {n k : Nat} {ids : Nat → Int}
    (hid : ∀ q, q < n → ids q = -1 ∨ (0 ≤ ids q ∧ ids q < k))
    (hinj : ∀ q r, q < n → r < n → 0 ≤ ids q → ids q = ids r → q = r)
    (hsur : ∀ i, i < k → ∃ q, q < n ∧ ids q = i) :
    (colorGroup n (fun r => if ids r < 0 then -1 else 0) ids 0).map ids =
      (List.range k).map fun i : Nat => (i : Int) := by
  have hp : (colorGroup n (fun r => if ids r < 0 then -1 else 0) ids 0).Perm
      ((List.range n).filter fun r => decide ((if ids r < 0 then (-1 : Int) else 0) = 0)) :=
    List.mergeSort_perm _ _
  have hm : ∀ q, q ∈ colorGroup n (fun r => if ids r < 0 then -1 else 0) ids 0 ↔ q < n ∧ 0 ≤ ids q := by
    intro q
    rw [hp.mem_iff]
    simp only [List.mem_filter, List.mem_range, decide_eq_true_eq]
    constructor
    · rintro ⟨h1, h2⟩
      refine ⟨h1, ?_⟩
      split at h2
      · omega
      · omega
    · rintro ⟨h1, h2⟩
      exact ⟨h1, if_neg (by omega)⟩
  have hnd : (colorGroup n (fun r => if ids r < 0 then -1 else 0) ids 0).Nodup :=
    hp.nodup_iff.mpr (List.nodup_range.filter _)
  refine List.Perm.eq_of_pairwise (le := fun a b : Int => a ≤ b)
    (fun a b _ _ h1 h2 => Int.le_antisymm h1 h2) ?_ ?_ ?_
  · rw [List.pairwise_map]
    have := List.pairwise_mergeSort (le := fun a b : Nat => decide (ids a ≤ ids b))
      (fun a b d => by simp only [decide_eq_true_eq]; omega)
      (fun a b => by simp only [Bool.or_eq_true, decide_eq_true_eq]; omega)
      ((List.range n).filter fun q => (if ids q < 0 then (-1 : Int) else 0) = 0)
    exact this.imp fun h => by simpa using h
  · rw [List.pairwise_map]
    exact List.pairwise_lt_range.imp fun h => by omega
  · refine (List.perm_ext_iff_of_nodup ?_ ?_).mpr ?_
    · refine hnd.map_on ?_
      intro q hq r hr e
      exact hinj q r ((hm q).mp hq).1 ((hm r).mp hr).1 ((hm q).mp hq).2 e
    · exact List.nodup_range.map fun a b h => by simpa using h
    · intro x
      simp only [List.mem_map, List.mem_range, hm]
      constructor
      · rintro ⟨q, ⟨h1, h2⟩, rfl⟩
        rcases hid q h1 with h | h
        · omega
        · exact ⟨(ids q).toNat, by omega, by omega⟩
      · rintro ⟨i, hi, rfl⟩
        obtain ⟨q, h1, h2⟩ := hsur i hi
        exact ⟨q, ⟨h1, by omega⟩, h2⟩

theorem group_split {c : Comm} {k : Nat} {ids : Nat → Int}
    (hid : ∀ q, q < c.tasks.length → ids q = -1 ∨ (0 ≤ ids q ∧ ids q < k))
    (hinj : ∀ q r, q < c.tasks.length → r < c.tasks.length → 0 ≤ ids q → ids q = ids r → q = r)
    (hsur : ∀ i, i < k → ∃ q, q < c.tasks.length ∧ ids q = i) {r : Nat} (hr : r < c.tasks.length)
    (h0 : 0 ≤ ids r) :
    let g := splitFor c (fun r => if ids r < 0 then -1 else 0) ids r
    (g.rank : Int) = ids r ∧ g.tasks.length = k ∧ g.gen = c.gen + 1 ∧
      ∀ q, q < c.tasks.length → 0 ≤ ids q → g.tasks[(ids q).toNat]? = c.tasks[q]? := by
  have hl := group_list hid hinj hsur
  have hc : (if ids r < 0 then (-1 : Int) else 0) = 0 := if_neg (by omega)
  have hneg : ¬ (if ids r < 0 then (-1 : Int) else 0) = -1 := by rw [hc]; decide
  generalize hL : colorGroup c.tasks.length (fun r => if ids r < 0 then -1 else 0) ids 0 = l at hl
  have hlen : l.length = k := by
    have := congrArg List.length hl
    simpa using this
  have hmem : ∀ q, q < c.tasks.length → 0 ≤ ids q → q ∈ l := by
    intro q hq h
    have e : ((if ids q < 0 then (-1 : Int) else 0) = 0) := if_neg (by omega)
    rw [← hL]
    refine (List.mergeSort_perm _ _).mem_iff.mpr ?_
    simp [hq, h]
  have hat : ∀ q, q ∈ l → 0 ≤ ids q → (ids q).toNat = l.idxOf q := by
    intro q hq h
    have hi := List.idxOf_lt_length_of_mem hq
    have h1 : (l.map ids)[l.idxOf q]? = some (ids q) := by
      rw [List.getElem?_map, List.getElem?_eq_getElem hi]
      simp
    rw [hl, List.getElem?_map, List.getElem?_range (by omega)] at h1
    simp only [Option.map_some, Option.some.injEq] at h1
    omega
  have hg : splitFor c (fun r => if ids r < 0 then -1 else 0) ids r =
      ⟨l.map fun q => c.tasks[q]?.getD 0, l.idxOf r, c.gen + 1⟩ := by
    rw [splitFor, if_neg hneg]
    simp only [hc, hL]
  rw [hg]
  refine ⟨?_, by simpa using hlen, rfl, fun q hq h => ?_⟩
  · have := hat r (hmem r hr h0) h0
    show ((l.idxOf r : Nat) : Int) = _
    omega
  · have h1 := hmem q hq h
    have h2 := List.idxOf_lt_length_of_mem h1
    rw [hat q h1 h, List.getElem?_map, List.getElem?_eq_getElem h2]
    simp [hq]

end Laik.Mm
