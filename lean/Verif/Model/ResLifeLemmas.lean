import Verif.Model.ResLife
/-!
# Lists and reservations: invariant
-/

namespace Laik.Rl

section
variable {V : Type} {pr : Bool}

/-- What a list is for. -/
inductive Tag
  | own
  | ent (r t i : Nat)
  | bas (r t : Nat)

/-- A list is what is at a place. -/
def AtPlace (o : LObj) (g : Tag) : Place → Prop
  | .own a => g = .own ∧ o.has = a
  | .res r t i => g = .ent r t i

/-- Object of a list and what it is for. -/
def ListOK (h : Hist V) (n : Nat) (tag : Nat → Tag) (act : Option Nat) (l : Nat) (o : LObj) : Prop :=
  match tag l with
  | .own => o.res = none ∧ o.base = l ∧ (o.live = true ↔ act = some l)
  | .ent r t _ => o.res = some r ∧ o.has = true ∧ (o.live = true ↔ GenOK h r t) ∧ t < h.length ∧ o.base < n ∧ tag o.base = .bas r t
  | .bas r t => o.res = none ∧ (o.live = true ↔ GenOK h r t) ∧ t < h.length

/-- Object of a reservation. -/
structure ResOK (h : Hist V) (n : Nat) (tag : Nat → Tag) (r : Nat) (o : RObj) : Prop where
  live : o.live = true ↔ ¬ Freed h r
  adds : o.entries.map (·.1) = adds h r
  ent : ∀ (i p l : Nat), o.entries[i]? = some (p, some l) → ∃ t m, gen h r = some (t, m) ∧ i < m ∧ l < n ∧ tag l = .ent r t i
  full : ∀ (t m i : Nat), gen h r = some (t, m) → i < m → ∃ p l, o.entries[i]? = some (p, some l)
  base : ∀ b, o.base = some b → ∃ t m, gen h r = some (t, m) ∧ b < n ∧ tag b = .bas r t
  based : ∀ t m, gen h r = some (t, m) → ∃ b, o.base = some b

/-- List kept in a sequence and place it is for. -/
def PrepOK (n : Nat) (tag : Nat → Tag) (l : Option Nat) (x : Option Place) : Prop :=
  (l = none ∧ x = none) ∨ ∃ k r t i, l = some k ∧ x = some (.res r t i) ∧ k < n ∧ tag k = .ent r t i

structure SeqOK (n : Nat) (tag : Nat → Tag) (q : Prepared) (o : SObj) : Prop where
  F : o.F = q.F
  p : o.p = q.p
  keep : o.keep = q.keep
  src : PrepOK n tag o.prepFrom q.src
  dst : PrepOK n tag o.prepTo q.dst

/-- What holds of the objects after the calls `h`, with partitioning and place `N`. -/
structure Inv (pr : Bool) (h : Hist V) (N : Option (Nat × Place)) (s : St V) (tag : Nat → Tag) : Prop where
  nres : s.ress.length = made h
  res : ∀ (r : Nat) (o : RObj), s.ress[r]? = some o → ResOK h s.lists.length tag r o
  list : ∀ (l : Nat) (o : LObj), s.lists[l]? = some o → ListOK h s.lists.length tag s.act l o
  inj : ∀ l l', l < s.lists.length → l' < s.lists.length → tag l = tag l' → tag l ≠ .own → l = l'
  entlt : ∀ l r t m i, l < s.lists.length → tag l = .ent r t i → gen h r = some (t, m) → i < m
  once : OnceAlloc h → ∀ l r t, l < s.lists.length → (tag l = .bas r t ∨ ∃ i, tag l = .ent r t i) → ∃ m, gen h r = some (t, m)
  part : s.part = N.map (·.1)
  noact : N = none → s.act = none
  act : ∀ p x, N = some (p, x) → ∃ (l : Nat) (o : LObj), s.act = some l ∧ s.lists[l]? = some o ∧ AtPlace o (tag l) x
  use : s.use = used h
  nseq : s.seqs.length = (seqs pr h).length
  seq : ∀ (k : Nat) q, (seqs pr h)[k]? = some q → ∃ o : SObj, s.seqs[k]? = some o ∧ SeqOK s.lists.length tag q o
  genlt : ∀ r t m, gen h r = some (t, m) → r < made h ∧ t < h.length ∧ m ≤ (adds h r).length ∧ 0 < m
  addlt : ∀ r, made h ≤ r → adds h r = []
  freelt : ∀ r, Freed h r → r < made h

/-- Calls which change only partitioning and place. -/
structure Same (pr : Bool) (h h' : Hist V) : Prop where
  made : made h' = made h
  freed : ∀ r, Freed h' r ↔ Freed h r
  adds : ∀ r, adds h' r = adds h r
  gen : ∀ r, gen h' r = gen h r
  used : used h' = used h
  seqs : seqs pr h' = seqs pr h
  len : h.length ≤ h'.length
  once : OnceAlloc h' → OnceAlloc h

theorem Same.genOK {h h' : Hist V} (e : Same pr h h') (r t : Nat) : GenOK h' r t ↔ GenOK h r t := by
  unfold GenOK; rw [e.freed, e.gen]

theorem ListOK.same {h h' : Hist V} (hg : ∀ r t, t < h.length → (GenOK h' r t ↔ GenOK h r t)) (hl : h.length ≤ h'.length) {n : Nat} {tag : Nat → Tag} {act : Option Nat} {l : Nat} {o : LObj}
    (H : ListOK h n tag act l o) : ListOK h' n tag act l o := by
  unfold ListOK at H ⊢
  split
  · rename_i e; rw [e] at H; exact H
  · rename_i r t i e
    rw [e] at H
    obtain ⟨a, b, c, d, f⟩ := H
    exact ⟨a, b, c.trans (hg r t d).symm, by omega, f⟩
  · rename_i r t e
    rw [e] at H
    obtain ⟨a, b, c⟩ := H
    exact ⟨a, b.trans (hg r t c).symm, by omega⟩

theorem Inv.same {h h' : Hist V} (e : Same pr h h') {N : Option (Nat × Place)} {s : St V} {tag : Nat → Tag} (H : Inv pr h N s tag) : Inv pr h' N s tag where
  nres := by rw [e.made]; exact H.nres
  res r o ho := by
    have x := H.res r o ho
    exact ⟨by rw [e.freed]; exact x.live, by rw [e.adds]; exact x.adds, by rw [e.gen]; exact x.ent, by rw [e.gen]; exact x.full,
      by rw [e.gen]; exact x.base, by rw [e.gen]; exact x.based⟩
  list l o ho := (H.list l o ho).same (fun r t _ => e.genOK r t) e.len
  inj := H.inj
  entlt l r t m i hl ht hg := H.entlt l r t m i hl ht (by rw [← e.gen]; exact hg)
  once ho l r t hl ht := by rw [e.gen]; exact H.once (e.once ho) l r t hl ht
  part := H.part
  noact := H.noact
  act := H.act
  use := by rw [e.used]; exact H.use
  nseq := by rw [e.seqs]; exact H.nseq
  seq := by rw [e.seqs]; exact H.seq
  genlt r t m x := by
    rw [e.gen] at x
    obtain ⟨a, b, c⟩ := H.genlt r t m x
    rw [e.made, e.adds]
    exact ⟨a, Nat.lt_of_lt_of_le b e.len, c⟩
  addlt r x := by rw [e.adds]; exact H.addlt r (by rw [← e.made]; exact x)
  freelt r x := by rw [e.made]; exact H.freelt r ((e.freed r).1 x)

/-! ### Access -/

theorem Inv.getRes {h : Hist V} {N : Option (Nat × Place)} {s : St V} {tag : Nat → Tag} (H : Inv pr h N s tag) {r : Nat} (hr : InUse h r) :
    ∃ o, getRes s r = .ok o ∧ s.ress[r]? = some o ∧ ResOK h s.lists.length tag r o := by
  have hlt : r < s.ress.length := by rw [H.nres]; exact hr.1
  have e := List.getElem?_eq_getElem hlt
  have x := H.res r _ e
  refine ⟨_, ?_, e, x⟩
  unfold Rl.getRes
  rw [e]
  simp only
  rw [if_pos (x.live.2 hr.2)]

theorem Inv.getRes_bad {h : Hist V} {N : Option (Nat × Place)} {s : St V} {tag : Nat → Tag} (H : Inv pr h N s tag) {r : Nat} (hr : ¬ InUse h r) :
    Rl.getRes s r = .error .ub := by
  unfold Rl.getRes
  cases e : s.ress[r]? with
  | none => rfl
  | some o =>
    have x := H.res r _ e
    simp only
    rw [if_neg]
    intro hl
    exact hr ⟨by rw [← H.nres]; exact (List.getElem?_eq_some_iff.1 e).1, x.live.1 hl⟩

theorem getList_ok {s : St V} {l : Nat} {o : LObj} (h : s.lists[l]? = some o) (hl : o.live = true) : getList s l = .ok o := by
  unfold getList
  rw [h]
  simp only
  rw [if_pos hl]

theorem getList_bad {s : St V} {l : Nat} {o : LObj} (h : s.lists[l]? = some o) (hl : ¬ o.live = true) : getList s l = .error .ub := by
  unfold getList
  rw [h]
  simp only
  rw [if_neg hl]

/-- What is found for a partitioning. -/
theorem findEntry_spec {p m : Nat} {P : Nat → Nat → Prop} : ∀ (es : List (Nat × Option Nat)) (d : Nat),
    (∀ i q l, es[i]? = some (q, some l) → i + d < m ∧ P (i + d) l) → (∀ i, i + d < m → i < es.length → ∃ q l, es[i]? = some (q, some l)) →
    (p ∈ (es.map (·.1)).take (m - d) → ∃ l, findEntry p es = some l ∧ P ((es.map (·.1)).idxOf p + d) l) ∧
    (p ∉ (es.map (·.1)).take (m - d) → findEntry p es = none) := by
  intro es
  induction es with
  | nil => intro d _ _; exact ⟨fun h => by simp at h, fun _ => rfl⟩
  | cons e es ih =>
    intro d h1 h2
    obtain ⟨q, x⟩ := e
    have ih := ih (d + 1) (fun i q l hi => by
        have := h1 (i + 1) q l (by simpa using hi)
        rw [show i + 1 + d = i + (d + 1) by omega] at this
        exact this)
      (fun i hi hlt => by
        have := h2 (i + 1) (by omega) (by simpa using hlt)
        simpa using this)
    cases x with
    | none =>
      have hm : m ≤ d := by
        rcases Nat.lt_or_ge d m with hlt | hge
        · obtain ⟨q', l, e⟩ := h2 0 (by omega) (by simp)
          simp at e
        · exact hge
      have e0 : m - d = 0 := by omega
      have e1 : m - (d + 1) = 0 := by omega
      rw [e0]
      rw [e1] at ih
      refine ⟨fun h => by simp at h, fun _ => ?_⟩
      exact ih.2 (by simp)
    | some l =>
      obtain ⟨hm, hP⟩ := h1 0 q l rfl
      rw [Nat.zero_add] at hm hP
      have e0 : m - d = (m - (d + 1)) + 1 := by omega
      rw [e0, List.map_cons, List.take_succ_cons]
      unfold findEntry
      by_cases hq : q = p
      · subst hq
        rw [if_pos rfl]
        refine ⟨fun _ => ⟨l, rfl, ?_⟩, fun h => absurd (List.mem_cons_self) h⟩
        rw [List.idxOf_cons_self, Nat.zero_add]
        exact hP
      · rw [if_neg hq]
        refine ⟨fun h => ?_, fun h => ih.2 (fun h' => h (List.mem_cons_of_mem _ h'))⟩
        rcases List.mem_cons.1 h with h | h
        · exact absurd h.symm hq
        · obtain ⟨l', a, b⟩ := ih.1 h
          refine ⟨l', a, ?_⟩
          have e : ((q, some l) :: es).map (·.1) = q :: es.map (·.1) := rfl
          have e2 : (q :: es.map (·.1)).idxOf p = (es.map (·.1)).idxOf p + 1 := by
            have e3 : (q == p) = false := beq_false_of_ne hq
            rw [List.idxOf_cons, e3]
            rfl
          rw [e2, show ∀ x, x + 1 + d = x + (d + 1) from fun x => by omega]
          exact b

theorem Inv.entry {h : Hist V} {N : Option (Nat × Place)} {s : St V} {tag : Nat → Tag} (H : Inv pr h N s tag) {r : Nat} (hr : InUse h r) (p : Nat) :
    (covered h r p = none ∧ getMList s r p = .ok none) ∨
    ∃ l o t i, covered h r p = some (.res r t i) ∧ getMList s r p = .ok (some l) ∧ s.lists[l]? = some o ∧ o.live = true ∧ tag l = .ent r t i ∧
      (∃ n, gen h r = some (t, n)) := by
  obtain ⟨o, h1, h2, x⟩ := H.getRes hr
  unfold getMList covered
  rw [h1]
  simp only
  cases hg : gen h r with
  | none =>
    left
    refine ⟨rfl, ?_⟩
    have : findEntry p o.entries = none := by
      refine (findEntry_spec (m := 0) (P := fun _ _ => True) o.entries 0 ?_ (fun i hi => by omega)).2 (by simp)
      intro i q l e
      obtain ⟨t, m, e', _⟩ := x.ent i q l e
      rw [hg] at e'
      cases e'
    rw [this]
  | some g =>
    obtain ⟨t, m⟩ := g
    have hf := findEntry_spec (p := p) (m := m) (P := fun i l => l < s.lists.length ∧ tag l = .ent r t i) o.entries 0
      (by
        intro i q l e
        obtain ⟨t', m', e', a, b, c⟩ := x.ent i q l e
        rw [hg] at e'
        cases e'
        exact ⟨a, b, c⟩)
      (fun i hi _ => x.full t m i hg hi)
    rw [x.adds, Nat.sub_zero] at hf
    simp only
    by_cases hp : p ∈ (adds h r).take m
    · right
      obtain ⟨l, f1, f2, f3⟩ := hf.1 hp
      rw [if_pos hp, f1]
      have el := List.getElem?_eq_getElem f2
      have hl := H.list l _ el
      unfold ListOK at hl
      rw [f3] at hl
      have hlive : (s.lists[l]).live = true := hl.2.2.1.2 (fun hn => hr.2 hn.1)
      refine ⟨l, _, t, _, rfl, ?_, el, hlive, f3, m, rfl⟩
      simp only
      rw [getList_ok el hlive]
      simp only
      rw [if_pos hl.1]
    · left
      rw [if_neg hp, hf.2 hp]
      exact ⟨rfl, rfl⟩

/-- Lists for a switch. -/
theorem Inv.prepare {h : Hist V} {N : Option (Nat × Place)} {s : St V} {tag : Nat → Tag} (H : Inv pr h N s tag) (hu : UseOK h) (p : Nat) (a : Bool) :
    (placeFor h p a = .own a ∧ prepareMaps s p = .ok ({ s with lists := s.lists ++ [⟨true, none, false, s.lists.length⟩] }, s.lists.length)) ∨
    ∃ l o r t i, placeFor h p a = .res r t i ∧ prepareMaps s p = .ok (s, l) ∧ s.lists[l]? = some o ∧ o.live = true ∧ tag l = .ent r t i := by
  unfold prepareMaps placeFor
  rw [H.use]
  cases e : used h with
  | none => exact Or.inl ⟨rfl, rfl⟩
  | some r =>
    rcases H.entry (hu r e) p with ⟨h1, h2⟩ | ⟨l, o, t, i, h1, h2, h3, h4, h5, _⟩
    · left
      rw [Option.bind_some, h1]
      simp only
      rw [h2]
      exact ⟨rfl, rfl⟩
    · right
      refine ⟨l, o, r, t, i, ?_, ?_, h3, h4, h5⟩
      · rw [Option.bind_some, h1]; rfl
      · simp only
        rw [h2]

theorem Inv.prepare_bad {h : Hist V} {N : Option (Nat × Place)} {s : St V} {tag : Nat → Tag} (H : Inv pr h N s tag) (hu : ¬ UseOK h) (p : Nat) :
    prepareMaps s p = .error .ub := by
  unfold prepareMaps
  rw [H.use]
  cases e : used h with
  | none => exact absurd (fun r hr => by rw [e] at hr; cases hr) hu
  | some r =>
    have : ¬ InUse h r := fun hi => hu (fun r' hr' => by rw [e] at hr'; cases hr'; exact hi)
    simp only
    unfold getMList
    rw [H.getRes_bad this]

end

end Laik.Rl
