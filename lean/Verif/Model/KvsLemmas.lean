import Verif.Model.Kvs
/-!
# Lemmas for the key-value store
-/

namespace Laik

theorem strcmp_self : ∀ a, strcmp a a = 0
  | [] => rfl
  | a :: as => by simp [strcmp, strcmp_self as]

theorem strcmp_zero : ∀ {a b}, strcmp a b = 0 → a = b
  | [], [], _ => rfl
  | [], _ :: _, h => by simp [strcmp] at h
  | _ :: _, [], h => by simp [strcmp] at h
  | a :: as, b :: bs, h => by
    simp only [strcmp] at h
    split at h
    · omega
    · split at h
      · omega
      · rw [strcmp_zero h]
        congr 1
        omega

theorem strcmp_pos : ∀ a b, 0 < strcmp a b ↔ strcmp b a < 0
  | [], [] => by simp [strcmp]
  | [], _ :: _ => by simp [strcmp]
  | _ :: _, [] => by simp [strcmp]
  | a :: as, b :: bs => by
    simp only [strcmp]
    have := strcmp_pos as bs
    split
    · rw [if_neg (by omega)]
      simp [*]
    · split
      · simp
      · exact this

theorem strcmp_trans : ∀ {a b c}, strcmp a b < 0 → strcmp b c < 0 → strcmp a c < 0
  | [], [], _, h, _ => by simp [strcmp] at h
  | [], _ :: _, [], _, h => by simp [strcmp] at h
  | [], _ :: _, _ :: _, _, _ => by simp [strcmp]
  | _ :: _, [], _, h, _ => by simp [strcmp] at h
  | _ :: _, _ :: _, [], _, h => by simp [strcmp] at h
  | a :: as, b :: bs, c :: cs, h1, h2 => by
    simp only [strcmp] at h1 h2 ⊢
    split at h1
    · split at h2
      · rw [if_pos (by omega)]; omega
      · split at h2
        · omega
        · rw [if_pos (by omega)]; omega
    · split at h1
      · omega
      · split at h2
        · rw [if_pos (by omega)]; omega
        · split at h2
          · omega
          · rw [if_neg (by omega), if_neg (by omega)]
            exact strcmp_trans h1 h2

theorem strcmp_neg_ne {a b : Bytes} (h : strcmp a b < 0) : a ≠ b := by
  rintro rfl
  rw [strcmp_self] at h
  omega

theorem strcmp_tri (a b : Bytes) : strcmp a b < 0 ∨ a = b ∨ strcmp b a < 0 := by
  by_cases h0 : strcmp a b = 0
  · exact .inr (.inl (strcmp_zero h0))
  · by_cases h : strcmp a b < 0
    · exact .inl h
    · exact .inr (.inr ((strcmp_pos a b).1 (by omega)))

theorem strcmp_asymm {a b : Bytes} (h : strcmp a b < 0) : ¬ strcmp b a < 0 := by
  intro h2
  have := (strcmp_pos a b).2 h2
  omega

theorem memcmpEq_true : ∀ {e v}, memcmpEq e v = some true ↔ v <+: e
  | _, [] => by simp [memcmpEq]
  | [], _ :: _ => by simp [memcmpEq]
  | a :: as, b :: bs => by
    simp only [memcmpEq, List.cons_prefix_cons]
    split
    · rw [memcmpEq_true]; simp [*]
    · have : ¬ b = a := fun h => by omega
      simp [this]

theorem memcmpEq_none : ∀ {e v}, memcmpEq e v = none ↔ e <+: v ∧ e ≠ v
  | e, [] => by
    simp only [memcmpEq, reduceCtorEq, List.prefix_nil, false_iff]
    rintro ⟨h, h2⟩
    exact h2 h
  | [], _ :: _ => by simp [memcmpEq]
  | a :: as, b :: bs => by
    simp only [memcmpEq, List.cons_prefix_cons]
    split
    · rw [memcmpEq_none]; simp [*]
    · simp [*]

theorem memcmpEq_false {e v} (h1 : ¬ v <+: e) (h2 : ¬ e <+: v) : memcmpEq e v = some false := by
  cases h : memcmpEq e v with
  | none => exact absurd (memcmpEq_none.1 h).1 h2
  | some b =>
    cases b with
    | true => exact absurd (memcmpEq_true.1 h) h1
    | false => rfl

/-! ## Search -/

/-- Invariant of the entry array. -/
structure KEInv (ent : List KEnt) (up : Nat) : Prop where
  nodup : (ent.map (·.key)).Nodup
  le : up ≤ ent.length
  sorted : (ent.take up).Pairwise (fun a b => strcmp a.key b.key < 0)

theorem einv_lt {ent : List KEnt} {up i j : Nat} (h : KEInv ent up) (hij : i < j) (hj : j < up) {a b : KEnt}
    (ha : ent[i]? = some a) (hb : ent[j]? = some b) : strcmp a.key b.key < 0 := by
  have h1 := h.sorted
  rw [List.pairwise_iff_getElem] at h1
  have hle := h.le
  have h2 := h1 i j (by rw [List.length_take]; omega) (by rw [List.length_take]; omega) hij
  rw [List.getElem_take, List.getElem_take] at h2
  rw [List.getElem?_eq_some_iff] at ha hb
  obtain ⟨_, rfl⟩ := ha
  obtain ⟨_, rfl⟩ := hb
  exact h2

theorem bsearch_spec {ent : List KEnt} {up : Nat} (h : KEInv ent up) (key : Bytes) (low high : Int)
    (hlow : 0 ≤ low) (hhigh : high < up)
    (hl : ∀ (i : Nat) (e : KEnt), ent[i]? = some e → (i : Int) < low → e.key ≠ key)
    (hh : ∀ i e, ent[i]? = some e → i < up → high < (i : Int) → e.key ≠ key) :
    (∃ i e, kvsBsearch ent key low high = some (some i) ∧ ent[i]? = some e ∧ e.key = key) ∨
    (kvsBsearch ent key low high = some none ∧ ∀ i e, ent[i]? = some e → i < up → e.key ≠ key) := by
  rw [kvsBsearch]
  split
  · rename_i hle
    have hup := h.le
    have hmid : ((low + high) / 2).toNat < up := by omega
    have hget : ent[((low + high) / 2).toNat]? = some (ent[((low + high) / 2).toNat]'(by omega)) :=
      List.getElem?_eq_getElem _
    generalize hm : (ent[((low + high) / 2).toNat]'(by omega)) = m at hget
    simp only [hget]
    split
    · rename_i h0
      exact .inl ⟨_, m, rfl, hget, (strcmp_zero h0).symm⟩
    · split
      · rename_i h0 hneg
        refine bsearch_spec h key low _ hlow (by omega) hl ?_
        intro i e hi hiu hgt
        by_cases hie : i = ((low + high) / 2).toNat
        · subst hie
          rw [hget] at hi
          cases hi
          intro hk
          rw [hk, strcmp_self] at h0
          exact h0 rfl
        · have h3 := einv_lt h (i := ((low + high) / 2).toNat) (j := i) (by omega) hiu hget hi
          exact fun hk => strcmp_neg_ne (strcmp_trans hneg h3) hk.symm
      · rename_i h0 hneg
        refine bsearch_spec h key _ high (by omega) hhigh ?_ hh
        intro i e hi hgt
        by_cases hie : i = ((low + high) / 2).toNat
        · subst hie
          rw [hget] at hi
          cases hi
          intro hk
          rw [hk, strcmp_self] at h0
          exact h0 rfl
        · have h3 := einv_lt h (i := i) (j := ((low + high) / 2).toNat) (by omega) (by omega) hi hget
          have h4 := (strcmp_pos key m.key).1 (by omega)
          exact strcmp_neg_ne (strcmp_trans h3 h4)
  · rename_i hlt
    refine .inr ⟨rfl, ?_⟩
    intro i e hi hiu
    by_cases hil : (i : Int) < low
    · exact hl i e hi hil
    · exact hh i e hi hiu (by omega)
termination_by (high + 1 - low).toNat
decreasing_by all_goals omega

theorem lsearch_spec (key : Bytes) : ∀ (l : List KEnt) (n : Nat),
    (∃ i e, kvsLsearch key l n = some (n + i) ∧ l[i]? = some e ∧ e.key = key) ∨
    (kvsLsearch key l n = none ∧ ∀ e ∈ l, e.key ≠ key)
  | [], n => .inr ⟨rfl, by simp⟩
  | e :: l, n => by
    simp only [kvsLsearch]
    split
    · rename_i h
      exact .inl ⟨0, e, rfl, rfl, strcmp_zero h⟩
    · rename_i h
      rcases lsearch_spec key l (n + 1) with ⟨i, e', h1, h2, h3⟩ | ⟨h1, h2⟩
      · exact .inl ⟨i + 1, e', by rw [h1]; congr 1; omega, h2, h3⟩
      · refine .inr ⟨h1, ?_⟩
        rintro x hx
        rcases List.mem_cons.1 hx with rfl | hx
        · intro hk
          rw [hk, strcmp_self] at h
          exact h rfl
        · exact h2 x hx

theorem kvsEntry_spec {s : KVS} (h : KEInv s.ent s.sortedUpto) (key : Bytes) :
    (∃ i e, kvsEntry s key = some (some i) ∧ s.ent[i]? = some e ∧ e.key = key) ∨
    (kvsEntry s key = some none ∧ ∀ e ∈ s.ent, e.key ≠ key) := by
  unfold kvsEntry
  rcases bsearch_spec h key 0 ((s.sortedUpto : Int) - 1) (by omega) (by omega)
    (by intro i e _ hi; omega) (by intro i e _ h1 h2; omega) with ⟨i, e, h1, h2, h3⟩ | ⟨h1, h2⟩
  · exact .inl ⟨i, e, by rw [h1]; rfl, h2, h3⟩
  · rw [h1]
    rcases lsearch_spec key (s.ent.drop s.sortedUpto) s.sortedUpto with ⟨i, e, h4, h5, h6⟩ | ⟨h4, h5⟩
    · refine .inl ⟨_, e, by simp only [Option.map_some]; rw [h4], ?_, h6⟩
      rw [List.getElem?_drop] at h5
      exact h5
    · refine .inr ⟨by simp only [Option.map_some]; rw [h4], ?_⟩
      intro e he
      obtain ⟨i, hi⟩ := List.mem_iff_getElem?.1 he
      by_cases hu : i < s.sortedUpto
      · exact h2 i e hi hu
      · refine h5 e (List.mem_iff_getElem?.2 ⟨i - s.sortedUpto, ?_⟩)
        rw [List.getElem?_drop]
        rw [← hi]
        congr 1
        omega

/-! ## Values of an entry array -/

/-- Value stored for a key. -/
def entVal (l : List KEnt) (k : Bytes) : Option Bytes := (l.find? (fun e => e.key = k)).bind (·.value)

theorem entVal_of_mem {l : List KEnt} (h : (l.map (·.key)).Nodup) {e : KEnt} (he : e ∈ l) :
    entVal l e.key = e.value := by
  induction l with
  | nil => cases he
  | cons a l ih =>
    rw [List.map_cons, List.nodup_cons] at h
    unfold entVal
    rw [List.find?_cons]
    rcases List.mem_cons.1 he with rfl | he
    · simp
    · have : a.key ≠ e.key := fun hk => h.1 (hk ▸ List.mem_map_of_mem he)
      simp only [this, decide_false]
      exact ih h.2 he

theorem entVal_none {l : List KEnt} {k : Bytes} (h : ∀ e ∈ l, e.key ≠ k) : entVal l k = none := by
  unfold entVal
  rw [List.find?_eq_none.2]
  · rfl
  · intro e he
    simpa using h e he

/-- Replace the entry with key `k`. -/
def entUpd (l : List KEnt) (k : Bytes) (f : KEnt → KEnt) : List KEnt := l.map (fun e => if e.key = k then f e else e)

theorem entUpd_not_mem {l : List KEnt} {k : Bytes} (h : ∀ e ∈ l, e.key ≠ k) (f) : entUpd l k f = l := by
  unfold entUpd
  conv_rhs => rw [← List.map_id l]
  apply List.map_congr_left
  intro e he
  simp [h e he]

theorem set_eq_upd {l : List KEnt} (h : (l.map (·.key)).Nodup) {i : Nat} {e : KEnt} (hi : l[i]? = some e) (f) :
    l.set i (f e) = entUpd l e.key f := by
  induction l generalizing i with
  | nil => simp at hi
  | cons a l ih =>
    rw [List.map_cons, List.nodup_cons] at h
    cases i with
    | zero =>
      simp only [List.getElem?_cons_zero, Option.some.injEq] at hi
      subst hi
      rw [List.set_cons_zero]
      have := entUpd_not_mem (l := l) (k := a.key) (fun x hx hk => h.1 (hk ▸ List.mem_map_of_mem hx)) f
      unfold entUpd at this ⊢
      rw [List.map_cons, this]
      simp
    | succ i =>
      rw [List.getElem?_cons_succ] at hi
      rw [List.set_cons_succ, ih h.2 hi]
      have : a.key ≠ e.key := fun hk => h.1 (hk ▸ List.mem_map_of_mem (List.mem_of_getElem? hi))
      unfold entUpd
      rw [List.map_cons, if_neg this]

theorem entUpd_keys {l : List KEnt} {k : Bytes} {f : KEnt → KEnt} (hf : ∀ e, (f e).key = e.key) :
    (entUpd l k f).map (·.key) = l.map (·.key) := by
  unfold entUpd
  rw [List.map_map]
  apply List.map_congr_left
  intro e _
  simp only [Function.comp]
  split
  · exact hf e
  · rfl

theorem entVal_upd (l : List KEnt) (k : Bytes) {f : KEnt → KEnt} (hf : ∀ e, (f e).key = e.key) (k' : Bytes) :
    entVal (entUpd l k f) k' =
      if k' = k then (l.find? (fun e => e.key = k)).bind (fun e => (f e).value) else entVal l k' := by
  induction l with
  | nil => simp [entUpd, entVal]
  | cons a l ih =>
    unfold entVal entUpd at *
    simp only [List.map_cons, List.find?_cons]
    by_cases hak : a.key = k
    · by_cases hk' : k' = k
      · subst hk'
        simp [hak, hf]
      · have h1 : ¬ (f a).key = k' := by rw [hf, hak]; exact fun h => hk' h.symm
        have h2 : ¬ k = k' := fun h => hk' h.symm
        simp only [hak, if_true, h1, decide_false, if_neg hk', h2] at ih ⊢
        exact ih
    · by_cases hk' : k' = k
      · subst hk'
        simp only [hak, if_false, decide_false, if_true] at ih ⊢
        exact ih
      · simp only [hak, if_false, if_neg hk'] at ih ⊢
        by_cases hka : a.key = k'
        · simp [hka]
        · simp only [hka, decide_false]
          exact ih

theorem einv_keys {l l' : List KEnt} {up : Nat} (h : KEInv l up) (hk : l'.map (·.key) = l.map (·.key)) : KEInv l' up := by
  refine ⟨by rw [hk]; exact h.nodup, ?_, ?_⟩
  · have := congrArg List.length hk
    rw [List.length_map, List.length_map] at this
    rw [this]
    exact h.le
  · have h1 := h.sorted
    have h2 : (l.take up).map (·.key) = (l'.take up).map (·.key) := by rw [List.map_take, List.map_take, hk]
    have h3 : ((l.take up).map (·.key)).Pairwise (fun a b => strcmp a b < 0) := by
      rw [List.pairwise_map]; exact h1
    rw [h2, List.pairwise_map] at h3
    exact h3

theorem einv_append {l : List KEnt} {up : Nat} (h : KEInv l up) {e : KEnt} (he : ∀ x ∈ l, x.key ≠ e.key) :
    KEInv (l ++ [e]) up := by
  refine ⟨?_, ?_, ?_⟩
  · rw [List.map_append, List.nodup_append]
    refine ⟨h.nodup, by simp, ?_⟩
    intro a ha b hb
    rw [List.mem_map] at ha
    obtain ⟨x, hx, rfl⟩ := ha
    simp only [List.map_cons, List.map_nil, List.mem_singleton] at hb
    subst hb
    exact he x hx
  · rw [List.length_append]
    have := h.le
    omega
  · rw [List.take_append_of_le_length h.le]
    exact h.sorted

theorem einv_sort {q} (hq : IsQsort q) {l : List KEnt} (h : (l.map (·.key)).Nodup) : KEInv (q l) l.length := by
  have hp := hq.perm l
  have hn : ((q l).map (·.key)).Nodup := (hp.map (·.key)).nodup_iff.2 h
  refine ⟨hn, Nat.le_of_eq hp.length_eq.symm, ?_⟩
  rw [List.take_of_length_le (Nat.le_of_eq hp.length_eq)]
  have h1 := hq.sorted l
  have h2 : (q l).Pairwise (fun a b => a.key ≠ b.key) := by
    unfold List.Nodup at hn
    rw [List.pairwise_map] at hn
    exact hn
  refine List.Pairwise.imp ?_ (h1.and h2)
  rintro a b ⟨hab, hne⟩
  rcases strcmp_tri a.key b.key with h3 | h3 | h3
  · exact h3
  · exact absurd h3 hne
  · have := (strcmp_pos a.key b.key).2 h3
    omega

theorem entVal_perm {l l' : List KEnt} (hp : l'.Perm l) (h : (l.map (·.key)).Nodup) (k : Bytes) :
    entVal l' k = entVal l k := by
  have h' : (l'.map (·.key)).Nodup := (hp.map (·.key)).nodup_iff.2 h
  by_cases hk : ∃ e ∈ l, e.key = k
  · obtain ⟨e, he, rfl⟩ := hk
    rw [entVal_of_mem h he, entVal_of_mem h' (hp.mem_iff.2 he)]
  · have hk : ∀ e ∈ l, e.key ≠ k := fun e he h => hk ⟨e, he, h⟩
    rw [entVal_none hk, entVal_none (fun e he => hk e (hp.mem_iff.1 he))]

theorem kvsGet_spec {s : KVS} (h : KEInv s.ent s.sortedUpto) (key : Bytes) : kvsGet s key = some (entVal s.ent key) := by
  unfold kvsGet
  rcases kvsEntry_spec h key with ⟨i, e, h1, h2, rfl⟩ | ⟨h1, h2⟩
  · rw [h1]
    simp only [Option.map_some, h2, Option.bind_some]
    rw [entVal_of_mem h.nodup (List.mem_of_getElem? h2)]
  · rw [h1, entVal_none h2]
    rfl

end Laik
