import Verif.Model.RangeListLemmas
import Mathlib.Data.List.Nodup
/-!
# Model of process groups (`src/core.c` 285-533)
-/

namespace Laik

/-- `Laik_Group` (include/laik/core-internal.h): `loc` is `locationid`, the size
is `loc.length`, `none` in translation tables is -1, parents are given by group
id.  Only the first `size` entries of `toParent` are kept. -/
structure Group where
  gid : Nat
  loc : List Nat
  myid : Option Nat
  parent : Option Nat := none
  parent2 : Option Nat := none
  fromParent : List (Option Nat) := []
  toParent : List (Option Nat) := []
  fromParent2 : List (Option Nat) := []
  toParent2 : List (Option Nat) := []
  deriving DecidableEq, Repr

/-- `laik_new_shrinked_group`, loop marking removed ids, src/core.c 497-503. -/
def shrinkMarks (size : Nat) (list : List Nat) : List (Option Nat) :=
  list.foldl (fun m i => m.set i none) (List.replicate size (some 0))

/-- `laik_new_shrinked_group`, renumbering loop, src/core.c 504-511: result
tables `fromParent` and `toParent` when at parent id `i` with next new id `o`. -/
def shrinkGo (i o : Nat) : List (Option Nat) → List (Option Nat) × List Nat
  | [] => ([], [])
  | none :: ms => let r := shrinkGo (i + 1) o ms; (none :: r.1, r.2)
  | some _ :: ms => let r := shrinkGo (i + 1) (o + 1) ms; (some o :: r.1, i :: r.2)

/-- `laik_new_shrinked_group`, src/core.c 493-533; `gid` is the id of the
created group; `none`: failed assert 501.  The backend call is not modelled. -/
def shrink (g : Group) (gid : Nat) (list : List Nat) : Option Group :=
  if list.all (· < g.loc.length) then
    let r := shrinkGo 0 0 (shrinkMarks g.loc.length list)
    some { gid, loc := r.2.map (fun i => g.loc[i]?.getD 0)
           myid := match g.myid with
             | none => none
             | some m => (r.1[m]?).join
           parent := some g.gid, fromParent := r.1, toParent := r.2.map some }
  else none

/-! ### Union -/

/-- `li_array` before sorting, src/core.c 403-413: pairs (location id, index). -/
def unionArray (l1 l2 : List Nat) : List (Nat × Nat) :=
  l1.zipIdx ++ l2.zipIdx l1.length

/-- `lids` counting loop, src/core.c 417-422. -/
def countLids (last : Option Nat) : List (Nat × Nat) → Nat
  | [] => 0
  | (lid, _) :: r => if last = some lid then countLids last r else 1 + countLids (some lid) r

/-- State of the loop building the union; `gi` is `loc.length - 1`. -/
structure UState where
  loc : List Nat
  toP : List (Option Nat)
  toP2 : List (Option Nat)
  fromP : List (Option Nat)
  fromP2 : List (Option Nat)
  myid : Option Nat
  deriving DecidableEq, Repr

/-- Loop body, src/core.c 446-464.  `lastlid` is always the last location id
stored (-1 before the first one, location ids are not negative). -/
def unionStep (mylid n1 : Nat) (st : UState) (e : Nat × Nat) : UState :=
  let st := if st.loc.getLast? = some e.1 then st else
    { st with loc := st.loc ++ [e.1], toP := st.toP ++ [none], toP2 := st.toP2 ++ [none]
              myid := if mylid = e.1 then some st.loc.length else st.myid }
  let gi := st.loc.length - 1
  if e.2 < n1 then
    { st with fromP := st.fromP.set e.2 (some gi), toP := st.toP.set gi (some e.2) }
  else
    { st with fromP2 := st.fromP2.set (e.2 - n1) (some gi), toP2 := st.toP2.set gi (some (e.2 - n1)) }

/-- Loop, src/core.c 445-464, with `fromParent` tables not initialised. -/
def unionLoop (mylid n1 n2 : Nat) (s : List (Nat × Nat)) : UState :=
  s.foldl (unionStep mylid n1) ⟨[], [], [], List.replicate n1 none, List.replicate n2 none, none⟩

/-- `laik_new_union_group`, src/core.c 396-490, where `s` is the result of
`qsort` and `mylid` the location id of the process.  The backend call is not
modelled. -/
def union (mylid : Nat) (g1 g2 : Group) (gid : Nat) (s : List (Nat × Nat)) : Group :=
  let lids := countLids none s
  if lids = g1.loc.length then g1
  else if lids = g2.loc.length then g2
  else
    let st := unionLoop mylid g1.loc.length g2.loc.length s
    { gid, loc := st.loc, myid := st.myid
      parent := some g1.gid, parent2 := some g2.gid
      fromParent := st.fromP, toParent := st.toP, fromParent2 := st.fromP2, toParent2 := st.toP2 }

/-! ### Shrink lemmas -/

theorem shrinkMarks_length (n : Nat) (list : List Nat) : (shrinkMarks n list).length = n := by
  unfold shrinkMarks
  suffices ∀ m : List (Option Nat), (list.foldl (fun m i => m.set i none) m).length = m.length by
    rw [this]; simp
  induction list with
  | nil => intro m; rfl
  | cons a l ih => intro m; simp [ih]

theorem shrinkMarks_get (n : Nat) (list : List Nat) (i : Nat) (hi : i < n) :
    (shrinkMarks n list)[i]? = some (if i ∈ list then none else some 0) := by
  unfold shrinkMarks
  suffices ∀ m : List (Option Nat), i < m.length →
      (list.foldl (fun m i => m.set i none) m)[i]? = some (if i ∈ list then none else m[i]?.join) by
    rw [this _ (by simpa using hi)]; simp [hi]
  induction list with
  | nil => intro m hm; simp [hm]
  | cons a l ih =>
    intro m hm
    simp only [List.foldl_cons]
    rw [ih _ (by simpa using hm)]
    by_cases h : i = a
    · subst h; simp [hm]
    · have h' : ¬ a = i := fun e => h e.symm
      simp [h, List.getElem?_set_ne h']

theorem shrinkGo_spec (ms : List (Option Nat)) (i o : Nat) :
    (shrinkGo i o ms).1.length = ms.length ∧
    (shrinkGo i o ms).2 = ((List.range' i ms.length).filter
      (fun k => (ms[k - i]?.join).isSome)) ∧
    (∀ k j, (shrinkGo i o ms).1[k]? = some (some j) ↔
      o ≤ j ∧ (shrinkGo i o ms).2[j - o]? = some (i + k)) ∧
    (∀ k, k < ms.length → ((shrinkGo i o ms).1[k]? = some none ↔ ms[k]? = some none)) := by
  induction ms generalizing i o with
  | nil => simp [shrinkGo]
  | cons m ms ih =>
    have hf : ∀ (l : List (Option Nat)), (List.range' (i+1) l.length).filter
          (fun k => ((m :: l)[k - i]?.join).isSome) =
        (List.range' (i+1) l.length).filter (fun k => (l[k - (i+1)]?.join).isSome) := by
      intro l
      apply List.filter_congr
      intro k hk
      rw [List.mem_range'_1] at hk
      have : k - i = (k - (i+1)) + 1 := by omega
      rw [this, List.getElem?_cons_succ]
    cases m with
    | none =>
      obtain ⟨h1, h2, h3, h4⟩ := ih (i + 1) o
      refine ⟨by simp [shrinkGo, h1], ?_, ?_, ?_⟩
      · simp only [shrinkGo, List.length_cons, List.range'_succ, List.filter_cons]
        simp [h2, hf]
      · intro k j
        cases k with
        | zero =>
          simp only [shrinkGo, List.getElem?_cons_zero, Nat.add_zero]
          constructor
          · intro h; cases h
          · rintro ⟨_, h⟩
            rw [h2] at h
            have := List.mem_of_getElem? h
            simp at this; omega
        | succ k =>
          simp only [shrinkGo, List.getElem?_cons_succ]
          rw [h3 k j, show i + 1 + k = i + (k + 1) by omega]
      · intro k hk
        cases k with
        | zero => simp [shrinkGo]
        | succ k => simp only [shrinkGo, List.getElem?_cons_succ]; exact h4 k (by simpa using hk)
    | some v =>
      obtain ⟨h1, h2, h3, h4⟩ := ih (i + 1) (o + 1)
      refine ⟨by simp [shrinkGo, h1], ?_, ?_, ?_⟩
      · simp only [shrinkGo, List.length_cons, List.range'_succ, List.filter_cons]
        simp [h2, hf]
      · intro k j
        cases k with
        | zero =>
          simp only [shrinkGo, List.getElem?_cons_zero, Nat.add_zero]
          constructor
          · intro h; simp at h; subst h; simp
          · rintro ⟨hle, h⟩
            by_cases hj : j = o
            · rw [hj]
            · rw [show j - o = (j - o - 1) + 1 by omega, List.getElem?_cons_succ, h2] at h
              have := List.mem_of_getElem? h
              simp at this; omega
        | succ k =>
          simp only [shrinkGo, List.getElem?_cons_succ]
          rw [h3 k j, show i + 1 + k = i + (k + 1) by omega]
          constructor
          · rintro ⟨a, b⟩
            refine ⟨by omega, ?_⟩
            rw [show j - o = (j - (o + 1)) + 1 by omega, List.getElem?_cons_succ]; exact b
          · rintro ⟨a, b⟩
            by_cases hj : j = o
            · subst hj; simp at b
            · refine ⟨by omega, ?_⟩
              rw [show j - o = (j - (o + 1)) + 1 by omega, List.getElem?_cons_succ] at b; exact b
      · intro k hk
        cases k with
        | zero => simp [shrinkGo]
        | succ k => simp only [shrinkGo, List.getElem?_cons_succ]; exact h4 k (by simpa using hk)

/-! ### Union lemmas -/

/-- Table pair for one parent: `frm`/`tto` describe exactly the relation `R`. -/
structure Tables (n : Nat) (frm tto : List (Option Nat)) (R : Nat → Nat → Prop) : Prop where
  frm : ∀ i, i < n → ∀ j, frm[i]? = some (some j) ↔ R i j
  tto : ∀ j i, tto[j]? = some (some i) ↔ i < n ∧ R i j

theorem Tables.set {n : Nat} {frm tto : List (Option Nat)} {R R' : Nat → Nat → Prop} {i0 j0 : Nat}
    (h : Tables n frm tto R) (hn : frm.length = n) (hi : i0 < n) (hj : j0 < tto.length)
    (hR' : ∀ i j, R' i j ↔ R i j ∨ (i = i0 ∧ j = j0))
    (h1 : ∀ j, R i0 j → j = j0) (h2 : ∀ i, i < n → R i j0 → i = i0) :
    Tables n (frm.set i0 (some j0)) (tto.set j0 (some i0)) R' := by
  constructor
  · intro i hin j
    rw [hR']
    by_cases e : i = i0
    · subst e
      rw [List.getElem?_set_self (by omega)]
      constructor
      · intro h; simp at h; exact Or.inr ⟨rfl, h.symm⟩
      · rintro (h' | ⟨_, rfl⟩)
        · rw [h1 j h']
        · rfl
    · rw [List.getElem?_set_ne (fun h => e h.symm), h.frm i hin j]
      constructor
      · exact Or.inl
      · rintro (h' | ⟨h', _⟩)
        · exact h'
        · exact absurd h' e
  · intro j i
    rw [hR']
    by_cases e : j = j0
    · subst e
      rw [List.getElem?_set_self hj]
      constructor
      · intro h; simp at h; subst h; exact ⟨hi, Or.inr ⟨rfl, rfl⟩⟩
      · rintro ⟨hin, h' | ⟨rfl, _⟩⟩
        · rw [h2 i hin h']
        · rfl
    · rw [List.getElem?_set_ne (fun h => e h.symm), h.tto j i]
      constructor
      · rintro ⟨a, b⟩; exact ⟨a, Or.inl b⟩
      · rintro ⟨a, b | ⟨_, b⟩⟩
        · exact ⟨a, b⟩
        · exact absurd b e

theorem Tables.congr {n : Nat} {frm tto : List (Option Nat)} {R R' : Nat → Nat → Prop}
    (h : Tables n frm tto R) (hR : ∀ i, i < n → ∀ j, R' i j ↔ R i j) : Tables n frm tto R' :=
  ⟨fun i hi j => by rw [hR i hi]; exact h.frm i hi j,
   fun j i => by
    rw [h.tto j i]
    constructor
    · rintro ⟨a, b⟩; exact ⟨a, (hR i a j).2 b⟩
    · rintro ⟨a, b⟩; exact ⟨a, (hR i a j).1 b⟩⟩

theorem Tables.push {n : Nat} {frm tto : List (Option Nat)} {R : Nat → Nat → Prop}
    (h : Tables n frm tto R) (hR : ∀ i, ¬ R i tto.length) : Tables n frm (tto ++ [none]) R := by
  refine ⟨h.frm, fun j i => ?_⟩
  rcases Nat.lt_trichotomy j tto.length with hj | hj | hj
  · rw [List.getElem?_append_left hj]; exact h.tto j i
  · subst hj
    simp only [List.getElem?_append_right (Nat.le_refl _), Nat.sub_self, List.getElem?_cons_zero]
    constructor
    · intro h; cases h
    · rintro ⟨_, h⟩; exact absurd h (hR i)
  · have e1 : (tto ++ [none])[j]? = none := by
      rw [List.getElem?_eq_none_iff]; simp; omega
    have e2 : tto[j]? = none := by rw [List.getElem?_eq_none_iff]; omega
    rw [e1, ← h.tto j i, e2]

/-- Entry `idx` (with location in the processed part) and position `j` of the
union are the same process. -/
def URel (c : Nat) (proc : List (Nat × Nat)) (loc : List Nat) (i j : Nat) : Prop :=
  ∃ lid, (lid, c + i) ∈ proc ∧ loc[j]? = some lid

/-- Invariant of the union loop. -/
structure UInv (mylid n1 n2 : Nat) (proc : List (Nat × Nat)) (st : UState) : Prop where
  len : st.toP.length = st.loc.length
  len2 : st.toP2.length = st.loc.length
  flen : st.fromP.length = n1
  flen2 : st.fromP2.length = n2
  mem : ∀ lid, lid ∈ st.loc ↔ ∃ idx, (lid, idx) ∈ proc
  sorted : st.loc.Pairwise (· < ·)
  tab : Tables n1 st.fromP st.toP (URel 0 proc st.loc)
  tab2 : Tables n2 st.fromP2 st.toP2 (URel n1 proc st.loc)
  my : ∀ j, st.myid = some j ↔ st.loc[j]? = some mylid

theorem get_inj_of_sorted {l : List Nat} (h : l.Pairwise (· < ·)) {i j v : Nat}
    (hi : l[i]? = some v) (hj : l[j]? = some v) : i = j := by
  obtain ⟨hi', ei⟩ := List.getElem?_eq_some_iff.1 hi
  obtain ⟨hj', ej⟩ := List.getElem?_eq_some_iff.1 hj
  rw [List.pairwise_iff_getElem] at h
  rcases Nat.lt_trichotomy i j with hlt | he | hlt
  · have := h i j hi' hj' hlt; omega
  · exact he
  · have := h j i hj' hi' hlt; omega

theorem le_last_of_sorted {l : List Nat} (h : l.Pairwise (· < ·)) {x v : Nat}
    (hx : l.getLast? = some x) (hv : v ∈ l) : v ≤ x := by
  obtain ⟨ys, rfl⟩ := List.getLast?_eq_some_iff.1 hx
  rw [List.pairwise_append] at h
  simp at hv
  rcases hv with hv | rfl
  · have := h.2.2 v hv x (by simp); omega
  · omega

theorem UInv.step {mylid n1 n2 : Nat} {proc : List (Nat × Nat)} {st : UState} {e : Nat × Nat}
    (h : UInv mylid n1 n2 proc st) (hge : ∀ p ∈ proc, p.1 ≤ e.1) (hidx : e.2 < n1 + n2)
    (hu1 : ∀ p ∈ proc, p.2 ≠ e.2)
    (hu2 : ∀ p ∈ proc, p.1 = e.1 → (p.2 < n1 ↔ ¬ e.2 < n1)) :
    UInv mylid n1 n2 (proc ++ [e]) (unionStep mylid n1 st e) := by
  obtain ⟨lid, idx⟩ := e
  simp only at hge hidx hu1 hu2
  -- state after the location was added
  have key : ∃ st' : UState, st' = (if st.loc.getLast? = some lid then st else
      { st with loc := st.loc ++ [lid], toP := st.toP ++ [none], toP2 := st.toP2 ++ [none]
                myid := if mylid = lid then some st.loc.length else st.myid }) ∧
      st'.loc.getLast? = some lid ∧ (∀ l, l ∈ st'.loc ↔ (∃ idx, (l, idx) ∈ proc) ∨ l = lid) ∧
      st'.toP.length = st'.loc.length ∧ st'.toP2.length = st'.loc.length ∧
      st'.fromP.length = n1 ∧ st'.fromP2.length = n2 ∧ st'.loc.Pairwise (· < ·) ∧
      Tables n1 st'.fromP st'.toP (URel 0 proc st'.loc) ∧
      Tables n2 st'.fromP2 st'.toP2 (URel n1 proc st'.loc) ∧
      (∀ j, st'.myid = some j ↔ st'.loc[j]? = some mylid) := by
    refine ⟨_, rfl, ?_⟩
    by_cases hl : st.loc.getLast? = some lid
    · rw [if_pos hl]
      refine ⟨hl, ?_, h.len, h.len2, h.flen, h.flen2, h.sorted, h.tab, h.tab2, h.my⟩
      intro l
      rw [h.mem]
      constructor
      · exact Or.inl
      · rintro (h' | rfl)
        · exact h'
        · exact (h.mem l).1 (List.mem_of_getLast? hl)
    · rw [if_neg hl]
      have hlt : ∀ l ∈ st.loc, l < lid := by
        intro l hm
        obtain ⟨i, hi⟩ := (h.mem l).1 hm
        have hle := hge _ hi
        simp only at hle
        rcases Nat.lt_or_ge l lid with h' | h'
        · exact h'
        · exfalso
          have hll : l = lid := by omega
          subst hll
          rcases hx : st.loc.getLast? with _ | x
          · rw [List.getLast?_eq_none_iff] at hx; rw [hx] at hm; simp at hm
          · have h1 := le_last_of_sorted h.sorted hx hm
            obtain ⟨k, hk⟩ := (h.mem x).1 (List.mem_of_getLast? hx)
            have h2 := hge _ hk
            simp only at h2
            have : x = l := by omega
            subst this; exact hl hx
      have hnew : ∀ c i, URel c proc (st.loc ++ [lid]) i st.loc.length → ∃ k, (lid, k) ∈ proc := by
        rintro c i ⟨l, hm, hg⟩
        simp at hg; subst hg; exact ⟨_, hm⟩
      have hnone : ∀ k, (lid, k) ∉ proc := by
        intro k hk
        have := hlt lid ((h.mem lid).2 ⟨k, hk⟩); omega
      have hrel : ∀ c i j, URel c proc (st.loc ++ [lid]) i j ↔ URel c proc st.loc i j := by
        intro c i j
        rcases Nat.lt_trichotomy j st.loc.length with hj | hj | hj
        · unfold URel; rw [List.getElem?_append_left hj]
        · subst hj
          constructor
          · intro h'; obtain ⟨k, hk⟩ := hnew c i h'; exact absurd hk (hnone k)
          · rintro ⟨l, _, hg⟩
            rw [List.getElem?_eq_none (Nat.le_refl _)] at hg; cases hg
        · constructor
          · rintro ⟨l, _, hg⟩
            rw [List.getElem?_eq_none (by simp; omega)] at hg; cases hg
          · rintro ⟨l, _, hg⟩
            rw [List.getElem?_eq_none (by omega)] at hg; cases hg
      have hout : ∀ c i, ¬ URel c proc st.loc i st.loc.length := by
        rintro c i ⟨l, _, hg⟩
        rw [List.getElem?_eq_none (Nat.le_refl _)] at hg; cases hg
      refine ⟨by simp, ?_, by simp [h.len], by simp [h.len2], h.flen, h.flen2, ?_, ?_, ?_, ?_⟩
      · intro l; simp only [List.mem_append, List.mem_singleton]; rw [h.mem]
      · rw [List.pairwise_append]
        exact ⟨h.sorted, by simp, fun a ha b hb => by simp at hb; subst hb; exact hlt a ha⟩
      · exact (h.tab.push (fun i => by rw [h.len]; exact hout 0 i)).congr (fun i _ j => hrel 0 i j)
      · exact (h.tab2.push (fun i => by rw [h.len2]; exact hout n1 i)).congr (fun i _ j => hrel n1 i j)
      · intro j
        by_cases hm : mylid = lid
        · subst hm
          simp only [if_true, Option.some.injEq]
          constructor
          · rintro rfl; simp
          · intro hg
            rcases Nat.lt_trichotomy j st.loc.length with hj | hj | hj
            · rw [List.getElem?_append_left hj] at hg
              have := hlt _ (List.mem_of_getElem? hg); omega
            · exact hj.symm
            · rw [List.getElem?_eq_none (by simp; omega)] at hg; cases hg
        · simp only [if_neg hm]
          rw [h.my j]
          rcases Nat.lt_trichotomy j st.loc.length with hj | hj | hj
          · rw [List.getElem?_append_left hj]
          · subst hj
            rw [List.getElem?_eq_none (Nat.le_refl _)]
            simp
            exact fun e => hm e.symm
          · rw [List.getElem?_eq_none (by omega), List.getElem?_eq_none (by simp; omega)]
  obtain ⟨st', hst', hlast, hmem, hl1, hl2, hf1, hf2, hsrt, ht1, ht2, hmy⟩ := key
  have hne : st'.loc ≠ [] := by intro h'; rw [h'] at hlast; simp at hlast
  have hpos : 0 < st'.loc.length := List.length_pos_iff.2 hne
  have hgi : st'.loc[st'.loc.length - 1]? = some lid := by rw [← List.getLast?_eq_getElem?]; exact hlast
  have hmem' : ∀ l, l ∈ st'.loc ↔ ∃ i, (l, i) ∈ proc ++ [(lid, idx)] := by
    intro l
    rw [hmem]
    constructor
    · rintro (⟨i, hi⟩ | rfl)
      · exact ⟨i, List.mem_append_left _ hi⟩
      · exact ⟨idx, List.mem_append_right _ (List.mem_singleton_self _)⟩
    · rintro ⟨i, hi⟩
      simp only [List.mem_append, List.mem_singleton, Prod.mk.injEq] at hi
      rcases hi with hi | ⟨rfl, _⟩
      · exact Or.inl ⟨i, hi⟩
      · exact Or.inr rfl
  -- relation after adding the entry
  have hrel : ∀ c i j, URel c (proc ++ [(lid, idx)]) st'.loc i j ↔
      URel c proc st'.loc i j ∨ (c + i = idx ∧ j = st'.loc.length - 1) := by
    intro c i j
    constructor
    · rintro ⟨l, hm, hg⟩
      simp only [List.mem_append, List.mem_singleton, Prod.mk.injEq] at hm
      rcases hm with hm | ⟨rfl, hi⟩
      · exact Or.inl ⟨l, hm, hg⟩
      · exact Or.inr ⟨hi, get_inj_of_sorted hsrt hg hgi⟩
    · rintro (⟨l, hm, hg⟩ | ⟨hi, rfl⟩)
      · exact ⟨l, List.mem_append_left _ hm, hg⟩
      · exact ⟨lid, by rw [hi]; exact List.mem_append_right _ (List.mem_singleton_self _), hgi⟩
  have hgin : ∀ c i, URel c proc st'.loc i (st'.loc.length - 1) → (lid, c + i) ∈ proc := by
    rintro c i ⟨l, hm, hg⟩
    rw [hgi] at hg; cases hg; exact hm
  have hstep : unionStep mylid n1 st (lid, idx) =
      (if idx < n1 then
        { st' with fromP := st'.fromP.set idx (some (st'.loc.length - 1))
                   toP := st'.toP.set (st'.loc.length - 1) (some idx) }
      else { st' with fromP2 := st'.fromP2.set (idx - n1) (some (st'.loc.length - 1))
                      toP2 := st'.toP2.set (st'.loc.length - 1) (some (idx - n1)) }) := by
    rw [hst']; rfl
  rw [hstep]
  by_cases hi : idx < n1
  · rw [if_pos hi]
    refine ⟨by simpa using hl1, hl2, by simpa using hf1, hf2, hmem', hsrt, ?_, ?_, hmy⟩
    · refine ht1.set hf1 hi (by omega) ?_ ?_ ?_
      · intro i j; rw [hrel, Nat.zero_add]
      · rintro j ⟨l, hm, _⟩
        exact absurd (by simp) (hu1 _ hm)
      · intro i hin hr
        have hm := hgin 0 i hr
        have := hu2 _ hm rfl
        simp only [Nat.zero_add] at this
        omega
    · refine ht2.congr ?_
      intro i hin j
      rw [hrel]
      constructor
      · rintro (h' | ⟨h', _⟩)
        · exact h'
        · omega
      · exact Or.inl
  · rw [if_neg hi]
    refine ⟨hl1, by simpa using hl2, hf1, by simpa using hf2, hmem', hsrt, ?_, ?_, hmy⟩
    · refine ht1.congr ?_
      intro i hin j
      rw [hrel]
      constructor
      · rintro (h' | ⟨h', _⟩)
        · exact h'
        · omega
      · exact Or.inl
    · refine ht2.set hf2 (by omega) (by omega) ?_ ?_ ?_
      · intro i j; rw [hrel]
        have : n1 + i = idx ↔ i = idx - n1 := by omega
        rw [this]
      · rintro j ⟨l, hm, _⟩
        exact absurd (by simp only; omega) (hu1 _ hm)
      · intro i hin hr
        have hm := hgin n1 i hr
        have := hu2 _ hm rfl
        simp only at this
        omega

theorem unionLoop_inv (mylid n1 n2 : Nat) (s : List (Nat × Nat))
    (hs : s.Pairwise (fun a b => a.1 ≤ b.1)) (hidx : ∀ e ∈ s, e.2 < n1 + n2)
    (hu1 : s.Pairwise (fun a b => a.2 ≠ b.2))
    (hu2 : s.Pairwise (fun a b => a.1 = b.1 → (a.2 < n1 ↔ ¬ b.2 < n1))) :
    UInv mylid n1 n2 s (unionLoop mylid n1 n2 s) := by
  suffices ∀ (rest proc : List (Nat × Nat)) (st : UState), s = proc ++ rest →
      UInv mylid n1 n2 proc st → UInv mylid n1 n2 s (rest.foldl (unionStep mylid n1) st) by
    apply this s [] _ rfl
    refine ⟨rfl, rfl, by simp, by simp, by simp, by simp, ?_, ?_, by simp⟩
    · constructor
      · intro i hi j; simp [URel, hi]
      · intro j i; simp [URel]
    · constructor
      · intro i hi j; simp [URel, hi]
      · intro j i; simp [URel]
  intro rest
  induction rest with
  | nil => intro proc st h hi; simp at h; subst h; exact hi
  | cons e rest ih =>
    intro proc st h hi
    rw [List.foldl_cons]
    apply ih (proc ++ [e]) _ (by rw [h]; simp)
    rw [h, List.pairwise_append] at hs hu1 hu2
    exact hi.step (fun p hp => hs.2.2 p hp e (by simp)) (hidx e (by rw [h]; simp))
      (fun p hp => hu1.2.2 p hp e (by simp)) (fun p hp => hu2.2.2 p hp e (by simp))

/-- The counting loop agrees with the building loop. -/
theorem countLids_eq (mylid n1 : Nat) (s : List (Nat × Nat)) (st : UState) :
    (s.foldl (unionStep mylid n1) st).loc.length = st.loc.length + countLids st.loc.getLast? s := by
  induction s generalizing st with
  | nil => rfl
  | cons e s ih =>
    obtain ⟨lid, idx⟩ := e
    rw [List.foldl_cons, ih]
    have hl : ∀ st' : UState, ∀ c : Prop, [Decidable c] → ∀ (a b c' d : List (Option Nat)),
        (if c then { st' with fromP := a, toP := b } else { st' with fromP2 := c', toP2 := d }).loc =
          st'.loc := by intros; split <;> rfl
    simp only [unionStep, hl, countLids]
    by_cases h : st.loc.getLast? = some lid
    · simp [h]
    · simp only [if_neg h, List.length_append, List.length_singleton, List.getLast?_concat]
      omega

/-- Properties of the array before sorting. -/
theorem unionArray_mem (l1 l2 : List Nat) (e : Nat × Nat) :
    e ∈ unionArray l1 l2 ↔ l1[e.2]? = some e.1 ∨ (l1.length ≤ e.2 ∧ l2[e.2 - l1.length]? = some e.1) := by
  unfold unionArray
  rw [List.mem_append, List.mem_zipIdx_iff_le_and_getElem?_sub, List.mem_zipIdx_iff_le_and_getElem?_sub]
  simp

theorem unionArray_snd (l1 l2 : List Nat) :
    (unionArray l1 l2).map Prod.snd = List.range (l1.length + l2.length) := by
  unfold unionArray
  rw [List.map_append, List.zipIdx_map_snd, List.zipIdx_map_snd, List.range_eq_range']
  rw [← List.range'_append_1]
  simp

theorem union_inv (mylid : Nat) (l1 l2 : List Nat) (h1 : l1.Nodup) (h2 : l2.Nodup)
    (s : List (Nat × Nat)) (hp : s.Perm (unionArray l1 l2))
    (hs : s.Pairwise (fun a b => a.1 ≤ b.1)) :
    UInv mylid l1.length l2.length s (unionLoop mylid l1.length l2.length s) := by
  have hsnd : (s.map Prod.snd).Nodup := by
    rw [(hp.map Prod.snd).nodup_iff, unionArray_snd]; exact List.nodup_range
  have hmem : ∀ e ∈ s, l1[e.2]? = some e.1 ∨ (l1.length ≤ e.2 ∧ l2[e.2 - l1.length]? = some e.1) :=
    fun e he => (unionArray_mem l1 l2 e).1 (hp.mem_iff.1 he)
  have hlt : ∀ e ∈ s, e.2 < l1.length + l2.length := by
    intro e he
    have : e.2 ∈ (unionArray l1 l2).map Prod.snd := List.mem_map_of_mem (hp.mem_iff.1 he)
    rw [unionArray_snd] at this; simpa using this
  refine unionLoop_inv mylid _ _ s hs hlt ?_ ?_
  · rw [List.nodup_iff_pairwise_ne, List.pairwise_map] at hsnd; exact hsnd
  · refine List.Nodup.pairwise_of_forall_ne (List.Nodup.of_map _ hsnd) ?_
    intro a ha b hb hab he
    have hne : a.2 ≠ b.2 := fun h => hab (Prod.ext he h)
    have ma := hmem a ha
    have mb := hmem b hb
    have la := hlt a ha
    have lb := hlt b hb
    constructor
    · intro hl hl'
      rw [List.getElem?_eq_getElem hl] at ma
      rw [List.getElem?_eq_getElem hl'] at mb
      have ea : l1[a.2] = a.1 := by rcases ma with h | h; simpa using h; omega
      have eb : l1[b.2] = b.1 := by rcases mb with h | h; simpa using h; omega
      exact hne ((List.Nodup.getElem_inj_iff h1).1 (by rw [ea, eb, he]))
    · intro hl'
      by_contra hl
      have ea : l2[a.2 - l1.length]? = some a.1 := by
        rcases ma with h | h
        · rw [List.getElem?_eq_none (by omega)] at h; cases h
        · exact h.2
      have eb : l2[b.2 - l1.length]? = some b.1 := by
        rcases mb with h | h
        · rw [List.getElem?_eq_none (by omega)] at h; cases h
        · exact h.2
      obtain ⟨_, ea'⟩ := List.getElem?_eq_some_iff.1 ea
      obtain ⟨_, eb'⟩ := List.getElem?_eq_some_iff.1 eb
      have := (List.Nodup.getElem_inj_iff h2).1 (ea'.trans (he.trans eb'.symm))
      omega

end Laik
