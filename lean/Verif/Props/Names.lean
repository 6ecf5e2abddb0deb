import Verif.Model.Names
/-!
# C62: names of objects fit into their memory
-/

namespace Laik.Nm

open Codec Lay

/-- C62 for names with counters: exactly the first million objects of each kind get
their name without writing outside of its memory.  Missing: more objects, see
`C62_aseq_overflow`. -/
theorem C62_counter_names_partial (o : Obj) (id : Nat) : o.name id = some (o.prefix ++ digits id) ↔ id < 1000000 := by
  have key : ∀ o : Obj, o.template.length = o.prefix.length + 6 := by
    intro o
    cases o <;> decide +kernel
  unfold Obj.name sprintfTo
  rw [key o, ← digits_length_iff id 6 (by decide), List.length_append]
  split
  · exact ⟨fun _ => by omega, fun _ => rfl⟩
  · exact ⟨nofun, fun h => by omega⟩

/-- C62 is false: every switch makes an action sequence (and a transition), the name of
the one after a million of switches is written after the end of its memory. -/
theorem C62_aseq_overflow : ∀ o : Obj, o.name 1000000 = none := by
  intro o
  cases o <;> decide +kernel

/-- C62 for partitionings: exact condition. -/
theorem C62_part_names_iff (base : Option (List Char)) (id : Nat) :
    partName base id ≠ none ↔ min 10 (base.getD "part".toList).length + 1 + (digits id).length ≤ 12 := by
  unfold partName sprintfTo
  have : "            ".toList.length = 12 := by decide +kernel
  rw [this, List.length_append, List.length_take, List.length_cons]
  split
  · exact ⟨fun _ => by omega, fun _ => nofun⟩
  · exact ⟨fun h => absurd rfl h, fun h => by omega⟩

/-- C62: new partitionings have names without problems until there are 10 million. -/
theorem C62_part_new (id : Nat) : partName none id = some ("part-".toList ++ digits id) ↔ id < 10000000 := by
  have h := C62_part_names_iff none id
  have h4 : min 10 (Option.getD none "part".toList).length = 4 := by decide +kernel
  rw [h4] at h
  rw [← digits_length_iff id 7 (by decide)]
  constructor
  · intro e
    have := h.1 (by rw [e]; nofun)
    omega
  · intro e
    unfold partName sprintfTo
    rw [if_pos]
    · have : (Option.getD none "part".toList).take 10 ++ '-' :: digits id = "part-".toList ++ digits id := by
        have e1 : (Option.getD none "part".toList).take 10 = "part".toList := by decide +kernel
        have e2 : "part-".toList = "part".toList ++ ['-'] := by decide +kernel
        rw [e1, e2, List.append_assoc, List.singleton_append]
      rw [this]
    · have : "            ".toList.length = 12 := by decide +kernel
      rw [this, List.length_append, List.length_take, List.length_cons, h4]
      omega

/-- C62 is false for clones: partitioning 10, its clone 11, and the clone of that
with number 12. -/
theorem C62_clone_overflow : ∃ a b, partName none 10 = some a ∧ partName (some a) 11 = some b ∧ partName (some b) 12 = none :=
  ⟨"part-10".toList, "part-10-11".toList, by decide +kernel, by decide +kernel, by decide +kernel⟩

/-- C62: a clone of a partitioning with a name of 10 or more characters, as set with
`laik_partitioning_set_name`, writes after the end of memory exactly if there were 10
partitionings before. -/
theorem C62_long_name (n : List Char) (h : 10 ≤ n.length) (id : Nat) : partName (some n) id = none ↔ 10 ≤ id := by
  have h1 := C62_part_names_iff (some n) id
  rw [Option.getD_some, Nat.min_eq_left h] at h1
  have h2 := digits_length_iff id 1 (by decide)
  constructor
  · intro e
    rcases Nat.lt_or_ge id 10 with hc | hc
    · exact absurd e (h1.2 (by omega))
    · exact hc
  · intro e
    cases hp : partName (some n) id with
    | none => rfl
    | some x =>
      have := h1.1 (by rw [hp]; nofun)
      omega

/-- C62: names are different for different objects. -/
theorem C62_distinct {b b' : Option (List Char)} {i j : Nat} {n : List Char} (h : partName b i = some n) (h' : partName b' j = some n) : i = j := by
  unfold partName sprintfTo at h h'
  split at h
  · split at h'
    · have e : (b.getD "part".toList).take 10 ++ '-' :: digits i = (b'.getD "part".toList).take 10 ++ '-' :: digits j :=
        (Option.some.inj h).trans (Option.some.inj h').symm
      exact (dash_split e).2
    · cases h'
  · cases h

theorem C62_distinct_counter {o o' : Obj} {i j : Nat} {n : List Char} (h : o.name i = some n) (h' : o'.name j = some n) : o = o' ∧ i = j := by
  unfold Obj.name sprintfTo at h h'
  split at h
  · split at h'
    · have e : o.prefix ++ digits i = o'.prefix ++ digits j := (Option.some.inj h).trans (Option.some.inj h').symm
      have key : ∀ o : Obj, ∃ s, o.prefix = s ++ ['-'] ∧ s = o.prefix.dropLast := by
        intro o
        exact ⟨o.prefix.dropLast, by cases o <;> decide +kernel, rfl⟩
      obtain ⟨s, hs, hs'⟩ := key o
      obtain ⟨t, ht, ht'⟩ := key o'
      rw [hs, ht, List.append_assoc, List.append_assoc, List.singleton_append, List.singleton_append] at e
      obtain ⟨e1, e2⟩ := dash_split e
      refine ⟨?_, e2⟩
      have : ∀ o o' : Obj, o.prefix.dropLast = o'.prefix.dropLast → o = o' := by
        intro o o'
        cases o <;> cases o' <;> decide +kernel
      exact this o o' (by rw [← hs', ← ht', e1])
    · cases h'
  · cases h

/-- C62 for descriptions of 1d layouts: they fit if there are at most 24 mappings, and
never otherwise.  The description is made for every switch to a partitioning with
mappings, for containers with provided memory (src/data.c 386-389), or if messages of
level 1 are printed. -/
theorem C62_describe_1d (l : LexLayout) (hd : l.dims = .d1) (hs : ∀ e ∈ l.e, e.s0 = 1 ∧ e.s1 = 0 ∧ e.s2 = 0) :
    describeLex l ≠ none ↔ l.e.length ≤ 24 := by
  obtain ⟨d, cnt, es⟩ := l
  cases hd
  have t1 : "lex (".toList.length = 5 := by decide +kernel
  have t2 : "d, ".toList.length = 3 := by decide +kernel
  have t3 : " maps, strides ".toList.length = 15 := by decide +kernel
  have t4 : (digits (Dims.toNat .d1)).length = 1 := by decide +kernel
  have hlen : (stridesText 0 es).length + (if es.length = 0 then 0 else 2) = 7 * es.length := by
    cases es with
    | nil => rfl
    | cons e es =>
      obtain ⟨h1, h2, h3⟩ := hs e List.mem_cons_self
      have h0 : (digits (Int.toNat 0)).length = 1 := by decide +kernel
      have h1' : (digits (Int.toNat 1)).length = 1 := by decide +kernel
      rw [stridesText, if_pos rfl, h1, h2, h3]
      simp only [List.length_append, List.length_cons, List.length_nil, h0, h1',
        stridesText_1d es 1 (by decide) (fun e he => hs e (List.mem_cons_of_mem _ he))]
      simp
      omega
  have k1 := digits_length_iff es.length 1 (by decide)
  have k2 := digits_length_iff es.length 2 (by decide)
  have k3 : 0 < (digits es.length).length := List.length_pos_iff.2 (digits_ne_nil _)
  have m : ∀ {x : List Char}, (sprintfTo 200 x ≠ none ↔ x.length ≤ 199) := by
    intro x
    unfold sprintfTo
    split
    · exact ⟨fun _ => by omega, fun _ => nofun⟩
    · exact ⟨fun h => absurd rfl h, fun h => by omega⟩
  unfold describeLex
  rw [m]
  simp only [List.length_append, t1, t2, t3, t4, List.length_cons, List.length_nil]
  constructor
  · intro h
    split at hlen <;> omega
  · intro h
    split at hlen <;> omega

theorem C62_describe_gen (d : Dims) : describeGen d ≠ none := by
  cases d <;> decide +kernel

/-! ### Cases meeting the hypotheses -/

example : Obj.aseq.name 999999 = some "aseq-999999".toList ∧ Obj.aseq.name 1000000 = none := by decide +kernel

example : partName (some "load balanced".toList) 9 = some "load balan-9".toList ∧ partName (some "load balanced".toList) 10 = none :=
  ⟨by decide +kernel, (C62_long_name _ (by decide +kernel) 10).2 (by decide)⟩

example : describeLex ⟨.d1, 25, List.replicate 25 ⟨⟨⟨0, 0, 0⟩, ⟨1, 0, 0⟩⟩, 1, 1, 0, 0⟩⟩ = none := by
  have h := C62_describe_1d ⟨.d1, 25, List.replicate 25 ⟨⟨⟨0, 0, 0⟩, ⟨1, 0, 0⟩⟩, 1, 1, 0, 0⟩⟩ rfl (fun e he => by
    rw [List.eq_of_mem_replicate he]
    exact ⟨rfl, rfl, rfl⟩)
  rcases Classical.em (describeLex ⟨.d1, 25, List.replicate 25 ⟨⟨⟨0, 0, 0⟩, ⟨1, 0, 0⟩⟩, 1, 1, 0, 0⟩⟩ = none) with e | e
  · exact e
  · exact absurd (h.1 e) (by decide)

end Laik.Nm
