import Verif.Props.IndexTrans
import Verif.Model.ReuseLemmas
import Verif.Model.MpiExists
/-!
# Placement of the mappings of a 1d container in memory
-/

namespace Laik.Hs

open Lay

/-! ### Re-use of allocations keeps blocks apart -/

theorem findReuse_mem {lay : LexLayout} {i : Nat} {old : LexLayout} {lay' : LexLayout} {s : Nat} {m : DMap} :
    ∀ (ms : List DMap) (k : Nat), findReuse lay i old k ms = some (some (lay', s, m)) →
      k ≤ s ∧ ms[s - k]? = some m ∧ m.reusedFor = none := by
  intro ms
  induction ms with
  | nil => intro k h; simp [findReuse] at h
  | cons a ms ih =>
    intro k h
    have next : findReuse lay i old (k + 1) ms = some (some (lay', s, m)) → k ≤ s ∧ (a :: ms)[s - k]? = some m ∧ m.reusedFor = none := by
      intro h
      obtain ⟨h1, h2, h3⟩ := ih _ h
      refine ⟨by omega, ?_, h3⟩
      rw [show s - k = (s - (k + 1)) + 1 by omega, List.getElem?_cons_succ]
      exact h2
    unfold findReuse at h
    split at h
    · exact next h
    · split at h
      · exact next h
      · rename_i hr
        have hr : a.reusedFor = none := by simpa using hr
        split at h
        · cases h
        · cases h
          exact ⟨Nat.le_refl _, by simp, hr⟩
        · exact next h

/-- State of `checkMapReuse` after the first `i` new mappings: new mappings are as
before or live in the allocation of an old mapping marked for them; marks are right. -/
structure Marks (to0 fr0 : MList) (i : Nat) (tl fr : MList) : Prop where
  len : tl.maps.length = to0.maps.length
  rest : ∀ j : Nat, i ≤ j → tl.maps[j]? = to0.maps[j]?
  new : ∀ (j : Nat) (m : DMap), tl.maps[j]? = some m → to0.maps[j]? = some m ∨ ∃ (s : Nat) (m0 m1 t0 : DMap), fr0.maps[s]? = some m0 ∧ fr.maps[s]? = some m1 ∧
    m1.reusedFor = some j ∧ to0.maps[j]? = some t0 ∧ m.required = t0.required ∧ m.reusedFor = t0.reusedFor ∧
    m.start = m0.start ∧ m.allocated = m0.allocated ∧ m.start ≠ none
  old : ∀ (s : Nat) (m1 : DMap), fr.maps[s]? = some m1 → ∃ m0 : DMap, fr0.maps[s]? = some m0 ∧ m1.start = m0.start ∧ m1.allocated = m0.allocated ∧
    ∀ j, m1.reusedFor = some j → j < i ∧ ∃ m : DMap, tl.maps[j]? = some m ∧ m.start = m0.start ∧ m.allocated = m0.allocated

theorem Marks.start {tl fr : MList} (h : ∀ m ∈ fr.maps, m.reusedFor = none) : Marks tl fr 0 tl fr where
  len := rfl
  rest _ _ := rfl
  new j m hm := Or.inl hm
  old s m hm := ⟨m, hm, rfl, rfl, fun j hj => by rw [h m (List.mem_of_getElem? hm)] at hj; cases hj⟩

theorem Marks.skip {to0 fr0 : MList} {i : Nat} {tl fr : MList} (h : Marks to0 fr0 i tl fr) : Marks to0 fr0 (i + 1) tl fr where
  len := h.len
  rest j hj := h.rest j (by omega)
  new := h.new
  old s m hm := by
    obtain ⟨m0, h1, h2, h3, h4⟩ := h.old s m hm
    exact ⟨m0, h1, h2, h3, fun j hj => ⟨by have := (h4 j hj).1; omega, (h4 j hj).2⟩⟩

theorem initEmbedded_eq {lay : LexLayout} {i : Nat} {tm m tm' : DMap} (h : initEmbedded lay i tm m = some tm') :
    tm'.required = tm.required ∧ tm'.reusedFor = tm.reusedFor ∧ tm'.start = m.start ∧ tm'.allocated = m.allocated ∧ tm'.start ≠ none := by
  unfold initEmbedded at h
  split at h
  · cases h
  · split at h
    · rename_i hs ho
      cases h
      exact ⟨rfl, rfl, hs.symm, rfl, by simp⟩
    · cases h

theorem Marks.mark {to0 fr0 : MList} {i : Nat} {tl fr : MList} (h : Marks to0 fr0 i tl fr) {lay' : LexLayout} {s : Nat} {m tm tm' : DMap}
    (hm : fr.maps[s]? = some m) (hr : m.reusedFor = none) (ht : tl.maps[i]? = some tm) (he : initEmbedded lay' i tm m = some tm') :
    Marks to0 fr0 (i + 1) ⟨lay', tl.maps.set i tm'⟩ { fr with maps := fr.maps.set s { m with reusedFor := some i } } := by
  obtain ⟨e1, e2, e3, e4, e5⟩ := initEmbedded_eq he
  obtain ⟨m0, o1, o2, o3, _⟩ := h.old s m hm
  have hi := (List.getElem?_eq_some_iff.1 ht).1
  have hs := (List.getElem?_eq_some_iff.1 hm).1
  refine ⟨by simpa using h.len, ?_, ?_, ?_⟩
  · intro j hj
    show (tl.maps.set i tm')[j]? = _
    rw [List.getElem?_set_ne (by omega)]
    exact h.rest j (by omega)
  · intro j m' hm'
    have hm' : (tl.maps.set i tm')[j]? = some m' := hm'
    by_cases hji : i = j
    · subst hji
      rw [List.getElem?_set_self hi] at hm'
      cases hm'
      refine Or.inr ⟨s, m0, { m with reusedFor := some i }, tm, o1, ?_, rfl, ?_, e1, e2, e3.trans o2, e4.trans o3, e5⟩
      · exact List.getElem?_set_self hs
      · rw [← h.rest i (Nat.le_refl _)]; exact ht
    · rw [List.getElem?_set_ne hji] at hm'
      rcases h.new j m' hm' with g | ⟨s', a0, a1, t0, g1, g2, g3, g4⟩
      · exact Or.inl g
      · refine Or.inr ⟨s', a0, a1, t0, g1, ?_, g3, g4⟩
        have : s ≠ s' := by
          rintro rfl
          rw [hm] at g2
          cases g2
          rw [hr] at g3
          cases g3
        show (fr.maps.set s _)[s']? = _
        rw [List.getElem?_set_ne this]
        exact g2
  · intro s' m1 hm1
    have hm1 : (fr.maps.set s { m with reusedFor := some i })[s']? = some m1 := hm1
    by_cases hss : s = s'
    · subst hss
      rw [List.getElem?_set_self hs] at hm1
      cases hm1
      refine ⟨m0, o1, o2, o3, ?_⟩
      intro j hj
      have hj : some i = some j := hj
      cases hj
      exact ⟨by omega, tm', List.getElem?_set_self hi, e3.trans o2, e4.trans o3⟩
    · rw [List.getElem?_set_ne hss] at hm1
      obtain ⟨a0, g1, g2, g3, g4⟩ := h.old s' m1 hm1
      refine ⟨a0, g1, g2, g3, fun j hj => ?_⟩
      obtain ⟨k1, m', k2, k3⟩ := g4 j hj
      refine ⟨by omega, m', ?_, k3⟩
      show (tl.maps.set i tm')[j]? = _
      rw [List.getElem?_set_ne (by omega)]
      exact k2

theorem reuseLoop_marks {to0 fr0 : MList} : ∀ (n i : Nat) (tl fr tl' fr' : MList), reuseLoop n i tl fr = some (tl', fr') →
    Marks to0 fr0 i tl fr → Marks to0 fr0 (i + n) tl' fr' := by
  intro n
  induction n with
  | zero =>
    intro i tl fr tl' fr' h hm
    simp only [reuseLoop, Option.some.injEq, Prod.mk.injEq] at h
    rw [← h.1, ← h.2]
    exact hm
  | succ n ih =>
    intro i tl fr tl' fr' h hm
    rw [show i + (n + 1) = (i + 1) + n by omega]
    unfold reuseLoop at h
    cases hf : findReuse tl.lay i fr.lay 0 fr.maps with
    | none => rw [hf] at h; cases h
    | some r =>
      rw [hf] at h
      cases r with
      | none => exact ih _ _ _ _ _ h hm.skip
      | some v =>
        obtain ⟨lay', s, m⟩ := v
        obtain ⟨_, f2, f3⟩ := findReuse_mem _ _ hf
        rw [Nat.sub_zero] at f2
        simp only at h
        cases ht : tl.maps[i]? with
        | none => rw [ht] at h; cases h
        | some tm =>
          rw [ht] at h
          simp only at h
          cases he : initEmbedded lay' i tm m with
          | none => rw [he] at h; cases h
          | some tm' =>
            rw [he] at h
            exact ih _ _ _ _ _ h (hm.mark f2 f3 ht he)

theorem checkMapReuse_marks {tl fr tl' fr' : MList} (h : checkMapReuse tl fr = some (tl', fr')) (hf : ∀ m ∈ fr.maps, m.reusedFor = none) :
    Marks tl fr tl.maps.length tl' fr' := by
  unfold checkMapReuse at h
  split at h
  · simp only [Option.some.injEq, Prod.mk.injEq] at h
    rw [← h.1, ← h.2]
    have := Marks.start (tl := tl) hf
    exact ⟨this.len, fun j _ => rfl, this.new, fun s m hm => by
      obtain ⟨m0, h1, h2, h3, h4⟩ := this.old s m hm
      exact ⟨m0, h1, h2, h3, fun j hj => absurd (h4 j hj).1 (by omega)⟩⟩
  · have := reuseLoop_marks (to0 := tl) (fr0 := fr) _ _ _ _ _ _ h (Marks.start hf)
    rwa [Nat.zero_add] at this

/-! ### Allocation -/

/-- `allocateMappings`, src/data.c 743-758: memory for all mappings which have none
yet, `a i` is the address got for mapping `i`; loop from mapping `i` on, `n` mappings
left.  `none`: failed assert. -/
def allocFrom (a : Nat → Int) : Nat → Nat → MList → Option MList
  | 0, _, ml => some ml
  | n + 1, i, ml => (allocMap ml i (a i)).bind (allocFrom a n (i + 1))

def allocAll (a : Nat → Int) (ml : MList) : Option MList := allocFrom a ml.maps.length 0 ml

theorem allocMap_get {ml ml' : MList} {i : Nat} {x : Int} (h : allocMap ml i x = some ml') :
    ml'.lay = ml.lay ∧ ml'.maps.length = ml.maps.length ∧ ∀ (j : Nat) (m' : DMap), ml'.maps[j]? = some m' → ∃ m : DMap, ml.maps[j]? = some m ∧
      (m' = m ∧ (j = i → m.base ≠ none) ∨ (j = i ∧ m.start = none ∧ m' = { m with start := some x, base := some x, allocated := m.required })) := by
  unfold allocMap at h
  cases hm : ml.maps[i]? with
  | none => rw [hm] at h; cases h
  | some m =>
    rw [hm] at h
    simp only at h
    split at h
    · rename_i hb
      cases h
      refine ⟨rfl, rfl, fun j m' hj => ⟨m', hj, Or.inl ⟨rfl, ?_⟩⟩⟩
      rintro rfl
      rw [hm] at hj
      cases hj
      intro h
      rw [h] at hb
      cases hb
    · split at h
      · cases h
      · rename_i hs
        have hs : m.start = none := by simpa using hs
        cases h
        refine ⟨rfl, by simp, fun j m' hj => ?_⟩
        have hj : (ml.maps.set i _)[j]? = some m' := hj
        by_cases hji : i = j
        · subst hji
          rw [List.getElem?_set_self (List.getElem?_eq_some_iff.1 hm).1] at hj
          cases hj
          exact ⟨m, hm, Or.inr ⟨rfl, hs, rfl⟩⟩
        · rw [List.getElem?_set_ne hji] at hj
          exact ⟨m', hj, Or.inl ⟨rfl, fun e => absurd e.symm hji⟩⟩

theorem allocFrom_get {a : Nat → Int} : ∀ (n i : Nat) (ml ml' : MList), allocFrom a n i ml = some ml' →
    (ml.OK → ml'.OK) ∧ ml'.lay = ml.lay ∧ ml'.maps.length = ml.maps.length ∧ ∀ (j : Nat) (m' : DMap), ml'.maps[j]? = some m' → ∃ m : DMap, ml.maps[j]? = some m ∧
      ((m' = m ∧ (i ≤ j → j < i + n → m.base ≠ none)) ∨
        (m.start = none ∧ m' = { m with start := some (a j), base := some (a j), allocated := m.required })) := by
  intro n
  induction n with
  | zero =>
    intro i ml ml' h
    cases h
    exact ⟨id, rfl, rfl, fun j m' hj => ⟨m', hj, Or.inl ⟨rfl, fun _ _ => by omega⟩⟩⟩
  | succ n ih =>
    intro i ml ml' h
    unfold allocFrom at h
    cases hm : allocMap ml i (a i) with
    | none => rw [hm] at h; cases h
    | some m1 =>
      rw [hm] at h
      obtain ⟨q1, q2, q3, q4⟩ := ih _ _ _ h
      obtain ⟨g1, g2, g3⟩ := allocMap_get hm
      refine ⟨fun h => q1 (allocMap_ok h hm), q2.trans g1, q3.trans g2, fun j m' hj => ?_⟩
      obtain ⟨x, x1, x2⟩ := q4 j m' hj
      obtain ⟨y, y1, y2⟩ := g3 j x x1
      refine ⟨y, y1, ?_⟩
      rcases y2 with ⟨rfl, y2⟩ | ⟨rfl, y2, rfl⟩
      · rcases x2 with ⟨x2, x3⟩ | x2
        · refine Or.inl ⟨x2, fun k1 k2 => ?_⟩
          by_cases e : j = i
          · exact y2 e
          · exact x3 (by omega) (by omega)
        · exact Or.inr x2
      · rcases x2 with ⟨x2, x3⟩ | ⟨x2, _⟩
        · exact Or.inr ⟨y2, x2⟩
        · cases x2

/-! ### Bytes -/

/-- Bytes of a mapping with memory: address and size.  `bt` gives the byte address of
an element address, `es` is the element size. -/
def blk (bt : Int → Nat) (es : Nat) (m : DMap) : Option (Nat × Nat) :=
  m.start.map fun s => (bt s, (m.allocated.hi.x - m.allocated.lo.x).toNat * es)

/-- Blocks have no common byte. -/
def Apart (a b : Option (Nat × Nat)) : Prop := ∀ x y, a = some x → b = some y → x.1 + x.2 ≤ y.1 ∨ y.1 + y.2 ≤ x.1

/-- Elements of a mapping follow each other in memory. -/
def Linear (bt : Int → Nat) (es : Nat) (m : DMap) : Prop :=
  ∀ s, m.start = some s → ∀ k : Nat, (k : Int) < m.allocated.hi.x - m.allocated.lo.x → bt (s + k) = bt s + k * es

theorem Apart.symm {a b : Option (Nat × Nat)} (h : Apart a b) : Apart b a := fun x y hx hy => (h y x hy hx).symm

/-- The mappings of a process between two switches: all have memory of their own, and
no mapping is marked as re-used. -/
structure Placed (bt : Int → Nat) (es : Nat) (ml : MList) : Prop where
  dims : ml.lay.dims = .d1
  ok : ml.OK
  has : ∀ m ∈ ml.maps, m.start ≠ none
  free : ∀ m ∈ ml.maps, m.reusedFor = none
  lin : ∀ m ∈ ml.maps, Linear bt es m
  apart : ∀ (i j : Nat) (a b : DMap), ml.maps[i]? = some a → ml.maps[j]? = some b → i ≠ j → Apart (blk bt es a) (blk bt es b)

/-- What `malloc` guarantees for the memory of the mappings of `to` which have none
in `to1`: it has no byte in common with other memory in use. -/
structure Fresh (bt : Int → Nat) (es : Nat) (ml to1 tl : MList) : Prop where
  lin : ∀ (i : Nat) (a b : DMap), to1.maps[i]? = some a → a.start = none → tl.maps[i]? = some b → Linear bt es b
  old : ∀ (i : Nat) (a b : DMap), to1.maps[i]? = some a → a.start = none → tl.maps[i]? = some b → ∀ c ∈ ml.maps, Apart (blk bt es b) (blk bt es c)
  new : ∀ (i j : Nat) (a b c : DMap), to1.maps[i]? = some a → a.start = none → tl.maps[i]? = some b → tl.maps[j]? = some c → i ≠ j →
    Apart (blk bt es b) (blk bt es c)

/-- Mappings of the target in a switch of a process with mappings `ml`
(`laik_switchto_partitioning` with `prepareMaps`, src/data.c 335-400, and
`doTransition`, 796-815): `own` are the ranges of the process in the new partitioning,
`to` the new mappings when actions are executed, `fr` the old ones with marks. -/
inductive NewMaps (bt : Int → Nat) (es : Nat) (ml : MList) (own : List TR) (tl fr : MList) : Prop
  | mk (rs : List Box) (to0 to1 : MList) (a : Nat → Int) (cover : coveringRanges .d1 own = some rs) (prep : prepMaps .d1 rs = some to0)
      (reuse : checkMapReuse to0 ml = some (to1, fr)) (alloc : allocAll a to1 = some tl) (fresh : Fresh bt es ml to1 tl)

/-- Ranges lie in the required ranges of their mappings. -/
def Covers (ml : MList) (own : List TR) : Prop :=
  ∀ r ∈ own, ∃ (k : Nat) (m : DMap), r.mapNo = (k : Int) ∧ ml.maps[k]? = some m ∧ m.required.lo.x ≤ r.box.lo.x ∧ r.box.hi.x ≤ m.required.hi.x

section
variable {bt : Int → Nat} {es : Nat} {ml tl fr : MList} {own : List TR}

theorem checkMapReuse_ok {t0 f0 t1 f1 : MList} (ht : t0.OK) (hf : f0.OK) (hd : f0.lay.dims = t0.lay.dims) (hfresh : ∀ m ∈ t0.maps, m.start = none)
    (h : checkMapReuse t0 f0 = some (t1, f1)) : t1.OK ∧ t1.lay.dims = t0.lay.dims := by
  unfold checkMapReuse at h
  split at h
  · simp only [Option.some.injEq, Prod.mk.injEq] at h
    rw [← h.1]
    exact ⟨ht, rfl⟩
  · obtain ⟨t, f, h1, h2, h3, _⟩ := reuseLoop_spec hf hd hfresh t0.maps.length 0 t0 f0 (by omega) ht rfl rfl
      ⟨rfl, rfl, fun s m hm => ⟨m, hm, rfl, fun _ => rfl⟩⟩ (fun j hj => by omega) (fun j _ => ⟨rfl, rfl⟩)
    rw [h1] at h
    simp only [Option.some.injEq, Prod.mk.injEq] at h
    rw [← h.1]
    exact ⟨h2, h3⟩

theorem entry_of {l : MList} (h : l.OK) {j : Nat} {m : DMap} (hm : l.maps[j]? = some m) : ∃ e, l.lay.e[j]? = some e := by
  have := (List.getElem?_eq_some_iff.1 hm).1
  rw [← h.len] at this
  exact ⟨_, List.getElem?_eq_getElem this⟩

theorem start_none_iff {l : MList} (h : l.OK) {j : Nat} {m : DMap} (hm : l.maps[j]? = some m) : m.start = none ↔ m.base = none := by
  obtain ⟨e, he⟩ := entry_of h hm
  rcases h.maps j m e hm he with ⟨h1, h2, _⟩ | ⟨s, h1⟩
  · rw [h1, h2]
  · rw [h1.start, h1.base]; simp

/-- The new mapping `j` got memory from `malloc`, or lives in the allocation of an old
mapping marked for it. -/
theorem NewMaps.kind (h : NewMaps bt es ml own tl fr) (hp : Placed bt es ml) :
    tl.OK ∧ tl.lay.dims = .d1 ∧ (∀ m ∈ tl.maps, m.reusedFor = none) ∧ Covers tl own ∧
    (∀ (j : Nat) (b : DMap), tl.maps[j]? = some b → b.start ≠ none ∧
      ((Linear bt es b ∧ (∀ c ∈ ml.maps, Apart (blk bt es b) (blk bt es c)) ∧
          ∀ (i : Nat) (c : DMap), tl.maps[i]? = some c → j ≠ i → Apart (blk bt es b) (blk bt es c)) ∨
        ∃ (s : Nat) (m0 m1 : DMap), ml.maps[s]? = some m0 ∧ fr.maps[s]? = some m1 ∧ m1.reusedFor = some j ∧ b.start = m0.start ∧ b.allocated = m0.allocated)) ∧
    (∀ (s : Nat) (m1 : DMap) (j : Nat), fr.maps[s]? = some m1 → m1.reusedFor = some j → ∃ m0 b : DMap, ml.maps[s]? = some m0 ∧ tl.maps[j]? = some b ∧
      b.start = m0.start ∧ b.allocated = m0.allocated) := by
  obtain ⟨rs, to0, to1, a, cover, prep, reuse, alloc, fresh⟩ := h
  obtain ⟨p1, p2, p3⟩ := prepMaps_ok prep
  have hmem : ∀ m ∈ to0.maps, m.start = none ∧ m.reusedFor = none := by
    intro m hm
    rw [p3] at hm
    obtain ⟨r, _, rfl⟩ := List.mem_map.1 hm
    exact ⟨rfl, rfl⟩
  obtain ⟨q1, q2⟩ := checkMapReuse_ok p1 hp.ok (by rw [hp.dims, p2]) (fun m hm => (hmem m hm).1) reuse
  have marks := checkMapReuse_marks reuse hp.free
  obtain ⟨a1, a2, a3, a4⟩ := allocFrom_get _ _ _ _ alloc
  have hok := a1 q1
  -- the mapping before allocation
  have key : ∀ (j : Nat) (b : DMap), tl.maps[j]? = some b → ∃ c : DMap, to1.maps[j]? = some c ∧ b.required = c.required ∧ b.reusedFor = c.reusedFor ∧
      b.start ≠ none ∧ (c.start ≠ none → b = c) := by
    intro j b hb
    obtain ⟨c, c1, c2⟩ := a4 j b hb
    refine ⟨c, c1, ?_⟩
    rcases c2 with ⟨rfl, c2⟩ | ⟨c2, rfl⟩
    · refine ⟨rfl, rfl, ?_, fun _ => rfl⟩
      rw [Ne, start_none_iff q1 c1]
      have := (List.getElem?_eq_some_iff.1 c1).1
      exact c2 (Nat.zero_le _) (by omega)
    · exact ⟨rfl, rfl, by simp, fun h => absurd c2 h⟩
  have req : ∀ (j : Nat) (c : DMap), to1.maps[j]? = some c → ∃ t0 : DMap, to0.maps[j]? = some t0 ∧ c.required = t0.required ∧ c.reusedFor = t0.reusedFor := by
    intro j c hc
    rcases marks.new j c hc with h | ⟨_, _, _, t0, _, _, _, h1, h2, h3, _⟩
    · exact ⟨c, h, rfl, rfl⟩
    · exact ⟨t0, h1, h2, h3⟩
  refine ⟨hok, by rw [a2, q2, p2], ?_, ?_, ?_, ?_⟩
  · intro b hb
    obtain ⟨j, hj⟩ := List.mem_iff_getElem?.1 hb
    obtain ⟨c, c1, _, c3, _⟩ := key j b hj
    obtain ⟨t0, t1, _, t3⟩ := req j c c1
    rw [c3, t3]
    exact (hmem t0 (List.mem_of_getElem? t1)).2
  · intro r hr
    obtain ⟨n, b, e1, e2, e3⟩ := (coveringRanges_spec cover).1 r hr
    have e3 := e3 0 (by decide)
    have ht : to0.maps[n]? = some ⟨none, none, b, b, none⟩ := by rw [p3, List.getElem?_map, e2]; rfl
    have hn := (List.getElem?_eq_some_iff.1 ht).1
    have hlen : n < tl.maps.length := by rw [a3, marks.len]; exact hn
    obtain ⟨c, c1, c2, _⟩ := key n _ (List.getElem?_eq_getElem hlen)
    obtain ⟨t0, t1, t2, _⟩ := req n c c1
    rw [ht] at t1
    cases t1
    refine ⟨n, _, e1, List.getElem?_eq_getElem hlen, ?_⟩
    rw [c2, t2]
    exact e3
  · intro j b hb
    obtain ⟨c, c1, _, _, c4, c5⟩ := key j b hb
    refine ⟨c4, ?_⟩
    by_cases hs : c.start = none
    · exact Or.inl ⟨fresh.lin j c b c1 hs hb, fresh.old j c b c1 hs hb, fun i d hd hne => fresh.new j i c b d c1 hs hb hd hne⟩
    · right
      cases c5 hs
      rcases marks.new j b c1 with h | ⟨s, m0, m1, _, h1, h2, h3, _, _, _, h4, h5, _⟩
      · exact absurd (hmem b (List.mem_of_getElem? h)).1 hs
      · exact ⟨s, m0, m1, h1, h2, h3, h4, h5⟩
  · intro s m1 j hm1 hj
    obtain ⟨m0, h1, h2, h3, h4⟩ := marks.old s m1 hm1
    obtain ⟨_, c, c1, c2, c3⟩ := h4 j hj
    have hlt := (List.getElem?_eq_some_iff.1 c1).1
    have hlt : j < tl.maps.length := by rw [a3]; exact hlt
    obtain ⟨c', d1, _, _, _, d5⟩ := key j _ (List.getElem?_eq_getElem hlt)
    rw [c1] at d1
    cases d1
    have hs : c.start ≠ none := by rw [c2]; exact hp.has m0 (List.mem_of_getElem? h1)
    refine ⟨m0, _, h1, List.getElem?_eq_getElem hlt, ?_⟩
    rw [d5 hs]
    exact ⟨c2, c3⟩

theorem blk_congr {a b : DMap} (h1 : a.start = b.start) (h2 : a.allocated = b.allocated) : blk bt es a = blk bt es b := by
  unfold blk; rw [h1, h2]

theorem Linear.congr {a b : DMap} (h1 : a.start = b.start) (h2 : a.allocated = b.allocated) (h : Linear bt es b) : Linear bt es a := by
  unfold Linear at *; rw [h1, h2]; exact h

theorem NewMaps.placed (h : NewMaps bt es ml own tl fr) (hp : Placed bt es ml) : Placed bt es tl ∧ Covers tl own := by
  obtain ⟨h1, h2, h3, h4, h5, h6⟩ := h.kind hp
  refine ⟨⟨h2, h1, ?_, h3, ?_, ?_⟩, h4⟩
  · intro m hm
    obtain ⟨j, hj⟩ := List.mem_iff_getElem?.1 hm
    exact (h5 j m hj).1
  · intro m hm
    obtain ⟨j, hj⟩ := List.mem_iff_getElem?.1 hm
    rcases (h5 j m hj).2 with ⟨k, _⟩ | ⟨s, m0, m1, k1, _, _, k2, k3⟩
    · exact k
    · exact (hp.lin m0 (List.mem_of_getElem? k1)).congr k2 k3
  · intro i j a b ha hb hij
    rcases (h5 i a ha).2 with ⟨_, _, k⟩ | ⟨s, m0, m1, k1, k2, k3, k4, k5⟩
    · exact k j b hb hij
    · rcases (h5 j b hb).2 with ⟨_, _, l⟩ | ⟨s', n0, n1, l1, l2, l3, l4, l5⟩
      · exact (l i a ha (fun e => hij e.symm)).symm
      · rw [blk_congr k4 k5, blk_congr l4 l5]
        refine hp.apart s s' m0 n0 k1 l1 ?_
        rintro rfl
        rw [k2] at l2
        cases l2
        rw [k3] at l3
        cases l3
        exact hij rfl

/-! ### Cells -/

/-- Address and first index of mapping `k`, as used to address elements by
`laik_aseq_flattenPacking` (src/action.c 1903-1915 and others): `base`, and first index
of the required range. -/
def mapFn (bt : Int → Nat) (ml : MList) (k : Int) : Option (Nat × Int) :=
  if 0 ≤ k then (ml.maps[k.toNat]?).bind fun m => m.base.map fun s => (bt s, m.required.lo.x) else none

/-- No copy from mapping `a` to mapping `b`, src/data.c 585: `fromMap->reusedFor ==
op->toMapNo`. -/
def skipFn (fr : MList) (a b : Int) : Bool :=
  decide (0 ≤ a) && match fr.maps[a.toNat]? with
    | some m => (match m.reusedFor with
      | some j => decide ((j : Int) = b)
      | none => decide ((-1 : Int) = b))
    | none => false

/-- Byte address of index `i` in a mapping. -/
def cellAt (bt : Int → Nat) (es : Nat) (m : DMap) (i : Int) : Nat := bt (m.start.getD 0) + (i - m.allocated.lo.x).toNat * es

theorem within_alloc {l : MList} (hd : l.lay.dims = .d1) (h : l.OK) {k : Nat} {m : DMap} (hm : l.maps[k]? = some m) (hs : m.start ≠ none) :
    m.allocated.lo.x ≤ m.required.lo.x ∧ m.required.hi.x ≤ m.allocated.hi.x := by
  obtain ⟨e, he⟩ := entry_of h hm
  rcases h.maps k m e hm he with ⟨h1, _⟩ | ⟨s, h1⟩
  · exact absurd h1 hs
  · have hsub := h1.sub
    rw [hd] at hsub
    have hne := h.ne m (List.mem_of_getElem? hm)
    rw [hd] at hne
    exact (subset_iff .d1 m.required m.allocated hne).1 hsub 0 (by decide)

/-- `base` and the first required index give the same addresses as `start` and the
first allocated index. -/
theorem Placed.mapFn (hp : Placed bt es ml) {k : Nat} {m : DMap} (h : ml.maps[k]? = some m) :
    ∃ b : Nat, mapFn bt ml (k : Int) = some (b, m.required.lo.x) ∧
      ∀ i, m.required.lo.x ≤ i → b + (i - m.required.lo.x).toNat * es = cellAt bt es m i := by
  have hmem := List.mem_of_getElem? h
  have hs := hp.has m hmem
  obtain ⟨w1, w2⟩ := within_alloc hp.dims hp.ok h hs
  obtain ⟨e, he⟩ := entry_of hp.ok h
  have hne := hp.ok.ne m hmem
  rw [hp.dims] at hne
  obtain ⟨q, hq⟩ := hne
  have hq := hq 0 (by decide)
  rcases hp.ok.maps k m e h he with ⟨h1, _⟩ | ⟨s, h1⟩
  · exact absurd h1 hs
  · have hoff : e.off ml.lay.dims m.required.lo = ((m.required.lo.x - m.allocated.lo.x).toNat : Int) := by
      rw [hp.dims, ← h1.box]
      rw [← h1.box] at w1
      have : e.off .d1 m.required.lo = m.required.lo.x - e.box.lo.x := by simp [LexEntry.off, Dims.toNat]
      omega
    have hb := h1.base
    rw [hoff] at hb
    have hq1 : m.required.lo.x ≤ q.get 0 := hq.1
    have hq2 : q.get 0 < m.required.hi.x := hq.2
    have hl := hp.lin m hmem s h1.start (m.required.lo.x - m.allocated.lo.x).toNat (by omega)
    refine ⟨bt s + (m.required.lo.x - m.allocated.lo.x).toNat * es, ?_, ?_⟩
    · unfold Hs.mapFn
      rw [if_pos (by omega), Int.toNat_natCast, h, Option.bind_some, hb, Option.map_some, hl]
    · intro i hi
      unfold cellAt
      rw [h1.start, Option.getD_some, Nat.add_assoc, ← Nat.add_mul]
      congr 2
      omega

theorem Placed.cell (hp : Placed bt es ml) (hc : Covers ml own) {r : TR} (hr : r ∈ own) {i : Int} (hi : r.has i) :
    ∃ (k : Nat) (m : DMap), r.mapNo = (k : Int) ∧ ml.maps[k]? = some m ∧ m.allocated.lo.x ≤ i ∧ i < m.allocated.hi.x ∧ m.required.lo.x ≤ i := by
  obtain ⟨k, m, h1, h2, h3, h4⟩ := hc r hr
  have hs := hp.has m (List.mem_of_getElem? h2)
  obtain ⟨h5, h6⟩ := within_alloc hp.dims hp.ok h2 hs
  have := hi.1
  have := hi.2
  exact ⟨k, m, h1, h2, by omega, by omega, by omega⟩

theorem cell_sep {m : DMap} {i j : Int} (hi : m.allocated.lo.x ≤ i) (hj : m.allocated.lo.x ≤ j) :
    (i = j ∧ cellAt bt es m i = cellAt bt es m j) ∨ cellAt bt es m i + es ≤ cellAt bt es m j ∨ cellAt bt es m j + es ≤ cellAt bt es m i := by
  have step : ∀ x y : Int, m.allocated.lo.x ≤ x → x < y → cellAt bt es m x + es ≤ cellAt bt es m y := by
    intro x y hx hxy
    unfold cellAt
    have : (x - m.allocated.lo.x).toNat + 1 ≤ (y - m.allocated.lo.x).toNat := by omega
    have := Nat.mul_le_mul_right es this
    rw [Nat.succ_mul] at this
    omega
  rcases Int.lt_trichotomy i j with h | h | h
  · exact Or.inr (Or.inl (step i j hi h))
  · exact Or.inl ⟨h, by rw [h]⟩
  · exact Or.inr (Or.inr (step j i hj h))

theorem cell_blk {m : DMap} (hs : m.start ≠ none) {i : Int} (h1 : m.allocated.lo.x ≤ i) (h2 : i < m.allocated.hi.x) :
    ∃ x, blk bt es m = some x ∧ x.1 ≤ cellAt bt es m i ∧ cellAt bt es m i + es ≤ x.1 + x.2 := by
  cases e : m.start with
  | none => exact absurd e hs
  | some s =>
    refine ⟨_, by rw [blk, e, Option.map_some], ?_, ?_⟩
    · show bt s ≤ cellAt bt es m i
      unfold cellAt
      rw [e, Option.getD_some]
      omega
    · show cellAt bt es m i + es ≤ bt s + (m.allocated.hi.x - m.allocated.lo.x).toNat * es
      unfold cellAt
      rw [e, Option.getD_some]
      have : (i - m.allocated.lo.x).toNat + 1 ≤ (m.allocated.hi.x - m.allocated.lo.x).toNat := by omega
      have := Nat.mul_le_mul_right es this
      rw [Nat.succ_mul] at this
      omega

theorem cell_apart {a b : DMap} (ha : a.start ≠ none) (hb : b.start ≠ none) (h : Apart (blk bt es a) (blk bt es b)) {i j : Int}
    (h1 : a.allocated.lo.x ≤ i) (h2 : i < a.allocated.hi.x) (h3 : b.allocated.lo.x ≤ j) (h4 : j < b.allocated.hi.x) :
    cellAt bt es a i + es ≤ cellAt bt es b j ∨ cellAt bt es b j + es ≤ cellAt bt es a i := by
  obtain ⟨x, x1, x2, x3⟩ := cell_blk (bt := bt) (es := es) ha h1 h2
  obtain ⟨y, y1, y2, y3⟩ := cell_blk (bt := bt) (es := es) hb h3 h4
  rcases h x y x1 y1 with h | h
  · left; omega
  · right; omega

theorem cellAt_congr {a b : DMap} (h1 : a.start = b.start) (h2 : a.allocated = b.allocated) (i : Int) : cellAt bt es a i = cellAt bt es b i := by
  unfold cellAt; rw [h1, h2]

/-- Cells of an old and of a new mapping. -/
theorem NewMaps.sep (h : NewMaps bt es ml own tl fr) (hp : Placed bt es ml) {k j : Nat} {m b : DMap} (hm : ml.maps[k]? = some m)
    (hb : tl.maps[j]? = some b) {x y : Int} (h1 : m.allocated.lo.x ≤ x) (h2 : x < m.allocated.hi.x) (h3 : b.allocated.lo.x ≤ y) (h4 : y < b.allocated.hi.x) :
    (x = y ∧ cellAt bt es m x = cellAt bt es b y) ∨ cellAt bt es m x + es ≤ cellAt bt es b y ∨ cellAt bt es b y + es ≤ cellAt bt es m x := by
  obtain ⟨_, _, _, _, h5, _⟩ := h.kind hp
  obtain ⟨hs, h5⟩ := h5 j b hb
  have hsm := hp.has m (List.mem_of_getElem? hm)
  rcases h5 with ⟨_, k, _⟩ | ⟨s, m0, m1, k1, _, _, k2, k3⟩
  · right
    exact (cell_apart hs hsm (k m (List.mem_of_getElem? hm)) h3 h4 h1 h2).symm
  · rw [k3] at h3 h4
    rw [cellAt_congr k2 k3]
    by_cases e : k = s
    · subst e
      rw [hm] at k1
      cases k1
      exact cell_sep h1 h3
    · right
      exact cell_apart hsm (hp.has m0 (List.mem_of_getElem? k1)) (hp.apart k s m m0 hm k1 e) h1 h2 h3 h4

theorem Placed.sep (hp : Placed bt es ml) {k j : Nat} {m b : DMap} (hm : ml.maps[k]? = some m) (hb : ml.maps[j]? = some b) {x y : Int}
    (h1 : m.allocated.lo.x ≤ x) (h2 : x < m.allocated.hi.x) (h3 : b.allocated.lo.x ≤ y) (h4 : y < b.allocated.hi.x) :
    (x = y ∧ cellAt bt es m x = cellAt bt es b y) ∨ cellAt bt es m x + es ≤ cellAt bt es b y ∨ cellAt bt es b y + es ≤ cellAt bt es m x := by
  by_cases e : k = j
  · subst e
    rw [hm] at hb
    cases hb
    exact cell_sep h1 h3
  · right
    exact cell_apart (hp.has m (List.mem_of_getElem? hm)) (hp.has b (List.mem_of_getElem? hb)) (hp.apart k j m b hm hb e) h1 h2 h3 h4

theorem skipFn_true {a j : Nat} (h : skipFn fr (a : Int) (j : Int) = true) : ∃ m : DMap, fr.maps[a]? = some m ∧ m.reusedFor = some j := by
  unfold skipFn at h
  rw [Int.toNat_natCast] at h
  cases hm : fr.maps[a]? with
  | none => rw [hm] at h; simp at h
  | some m =>
    rw [hm] at h
    refine ⟨m, rfl, ?_⟩
    cases hr : m.reusedFor with
    | none => simp [hr] at h
    | some k => simp [hr] at h; rw [Int.ofNat_inj.1 h]

end

end Laik.Hs
