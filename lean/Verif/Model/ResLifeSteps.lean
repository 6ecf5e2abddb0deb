import Verif.Model.ResLifeLemmas
/-!
# Lists and reservations: each call keeps the invariant
-/

namespace Laik.Rl

section
variable {V : Type} {pr : Bool}

theorem ResOK.mono {h : Hist V} {n n' : Nat} {tag tag' : Nat → Tag} (hn : n ≤ n') (ht : ∀ k < n, tag' k = tag k) {r : Nat} {o : RObj} (x : ResOK h n tag r o) :
    ResOK h n' tag' r o where
  live := x.live
  adds := x.adds
  ent i p l e := by
    obtain ⟨t, m, a, b, c, d⟩ := x.ent i p l e
    exact ⟨t, m, a, b, by omega, (ht l c).trans d⟩
  full := x.full
  base b e := by
    obtain ⟨t, m, a, c, d⟩ := x.base b e
    exact ⟨t, m, a, by omega, (ht b c).trans d⟩
  based := x.based

theorem PrepOK.mono {n n' : Nat} {tag tag' : Nat → Tag} (hn : n ≤ n') (ht : ∀ k < n, tag' k = tag k) {l : Option Nat} {x : Option Place} (h : PrepOK n tag l x) :
    PrepOK n' tag' l x := by
  rcases h with h | ⟨k, r, t, i, a, b, c, d⟩
  · exact Or.inl h
  · exact Or.inr ⟨k, r, t, i, a, b, by omega, (ht k c).trans d⟩

theorem SeqOK.mono {n n' : Nat} {tag tag' : Nat → Tag} (hn : n ≤ n') (ht : ∀ k < n, tag' k = tag k) {q : Prepared} {o : SObj} (h : SeqOK n tag q o) :
    SeqOK n' tag' q o := ⟨h.F, h.p, h.keep, h.src.mono hn ht, h.dst.mono hn ht⟩

theorem ListOK.mono {h : Hist V} {n n' : Nat} {tag tag' : Nat → Tag} (hn : n ≤ n') (ht : ∀ k < n, tag' k = tag k) {act : Option Nat} {l : Nat} (hl : l < n) {o : LObj}
    (H : ListOK h n tag act l o) : ListOK h n' tag' act l o := by
  unfold ListOK at H ⊢
  rw [ht l hl]
  split
  · rename_i e; rw [e] at H; exact H
  · rename_i r t i e
    rw [e] at H
    obtain ⟨a, b, c, d, f, g⟩ := H
    exact ⟨a, b, c, d, by omega, (ht _ f).trans g⟩
  · rename_i r t e
    rw [e] at H; exact H

/-- The old list is freed if not of a reservation. -/
def kill (act : Option Nat) (k : Nat) (o : LObj) : LObj := if act = some k ∧ o.res = none then { o with live := false } else o

theorem kill_base (act : Option Nat) (k : Nat) (o : LObj) : (kill act k o).base = o.base ∧ (kill act k o).has = o.has ∧ (kill act k o).res = o.res := by
  unfold kill; split <;> exact ⟨rfl, rfl, rfl⟩

theorem Inv.act_tag {h : Hist V} {N : Option (Nat × Place)} {s : St V} {tag : Nat → Tag} (H : Inv pr h N s tag) {k : Nat} (hk : s.act = some k) :
    tag k = .own ∨ ∃ r t i, tag k = .ent r t i := by
  cases hN : N with
  | none => have := H.noact hN; rw [hk] at this; cases this
  | some px =>
    obtain ⟨p, x⟩ := px
    obtain ⟨l, o, a, _, c⟩ := H.act p x hN
    rw [hk] at a
    cases a
    cases x with
    | own b => exact Or.inl c.1
    | res r t i => exact Or.inr ⟨r, t, i, c⟩

/-- Lists after the old list was freed, with another list active. -/
theorem Inv.killed {h : Hist V} {N : Option (Nat × Place)} {s : St V} {tag : Nat → Tag} (H : Inv pr h N s tag) {k : Nat} {o : LObj} (ho : s.lists[k]? = some o)
    {a : Nat} (ha : tag k = .own → a ≠ k) : ListOK h s.lists.length tag (some a) k (kill s.act k o) := by
  have x := H.list k o ho
  unfold ListOK at x ⊢
  obtain ⟨e1, e2, e3⟩ := kill_base s.act k o
  cases e : tag k with
  | own =>
    rw [e] at x
    simp only at x ⊢
    obtain ⟨x1, x2, x3⟩ := x
    refine ⟨by rw [e3]; exact x1, by rw [e1]; exact x2, ?_⟩
    have hne : ¬ some a = some k := fun h => ha e (Option.some.inj h)
    refine ⟨fun hl => ?_, fun h => absurd h hne⟩
    unfold kill at hl
    split at hl
    · cases hl
    · rename_i hn
      exact absurd ⟨x3.1 hl, x1⟩ hn
  | ent r t i =>
    rw [e] at x
    simp only at x ⊢
    have : kill s.act k o = o := by
      unfold kill
      rw [if_neg]
      intro hc
      rw [x.1] at hc
      cases hc.2
    rw [this]
    exact x
  | bas r t =>
    rw [e] at x
    simp only at x ⊢
    have : kill s.act k o = o := by
      unfold kill
      rw [if_neg]
      intro hc
      rcases H.act_tag hc.1 with h | ⟨_, _, _, h⟩ <;> rw [e] at h <;> cases h
    rw [this]
    exact x

/-- Switch into a reservation. -/
theorem Inv.move_res {h : Hist V} {N : Option (Nat × Place)} {s : St V} {tag : Nat → Tag} (H : Inv pr h N s tag) {l r t i : Nat} {o : LObj}
    (ho : s.lists[l]? = some o) (ht : tag l = .ent r t i) {L : List LObj} (hL : ∀ k : Nat, L[k]? = (s.lists[k]?).map (kill s.act k)) (p : Nat)
    (m : Nat → Option V) : Inv pr h (some (p, .res r t i)) { s with lists := L, mem := m, part := some p, act := some l } tag := by
  have hlen : L.length = s.lists.length := by
    have h1 := hL L.length
    have h2 := hL s.lists.length
    rw [List.getElem?_eq_none (Nat.le_refl _)] at h1
    rw [List.getElem?_eq_none (l := s.lists) (Nat.le_refl _)] at h2
    have h1 := Option.map_eq_none_iff.1 h1.symm
    have h1 := List.getElem?_eq_none_iff.1 h1
    have h2 : L[s.lists.length]? = none := h2
    have h2 := List.getElem?_eq_none_iff.1 h2
    omega
  exact {
    nres := H.nres
    res := fun r o ho => by
      show ResOK h L.length tag r o
      rw [hlen]
      exact H.res r o ho
    list := fun k o' ho' => by
      have ho' : L[k]? = some o' := ho'
      show ListOK h L.length tag (some l) k o'
      rw [hL] at ho'
      obtain ⟨o0, a, rfl⟩ := Option.map_eq_some_iff.1 ho'
      rw [hlen]
      refine H.killed a (fun e h => ?_)
      rw [h, e] at ht
      cases ht
    inj := fun a b ha hb => H.inj a b (hlen ▸ ha) (hlen ▸ hb)
    entlt := fun k r t m i hk => H.entlt k r t m i (hlen ▸ hk)
    once := fun ho k r t hk => H.once ho k r t (hlen ▸ hk)
    part := rfl
    noact := fun h => nomatch h
    act := fun p' x e => by
      cases e
      refine ⟨l, kill s.act l o, rfl, ?_, ht⟩
      show L[l]? = _
      rw [hL, ho]
      rfl
    use := H.use
    nseq := H.nseq
    seq := fun k q hq => by
      show ∃ o : SObj, s.seqs[k]? = some o ∧ SeqOK L.length tag q o
      rw [hlen]
      exact H.seq k q hq
    genlt := H.genlt
    addlt := H.addlt
    freelt := H.freelt }

/-- Switch to a new list. -/
theorem Inv.move_own {h : Hist V} {N : Option (Nat × Place)} {s : St V} {tag : Nat → Tag} (H : Inv pr h N s tag) {L : List LObj} {a : Bool}
    (hlen : L.length = s.lists.length + 1) (hnew : L[s.lists.length]? = some ⟨true, none, a, s.lists.length⟩)
    (hL : ∀ k : Nat, k < s.lists.length → L[k]? = (s.lists[k]?).map (kill s.act k)) (p : Nat) (m : Nat → Option V) :
    Inv pr h (some (p, .own a)) { s with lists := L, mem := m, part := some p, act := some s.lists.length }
      (fun k => if k = s.lists.length then .own else tag k) := by
  have hn : s.lists.length ≤ L.length := by omega
  have ht : ∀ k < s.lists.length, (if k = s.lists.length then Tag.own else tag k) = tag k := fun k hk => if_neg (by omega)
  exact {
    nres := H.nres
    res := fun r o ho => (H.res r o ho).mono hn ht
    list := fun k o' ho' => by
      have ho' : L[k]? = some o' := ho'
      show ListOK h L.length _ (some s.lists.length) k o'
      by_cases hk : k = s.lists.length
      · subst hk
        rw [hnew] at ho'
        cases ho'
        unfold ListOK
        simp only [if_pos]
        simp
      · have hk' : k < s.lists.length := by
          have := (List.getElem?_eq_some_iff.1 ho').1
          omega
        rw [hL k hk'] at ho'
        obtain ⟨o0, b, rfl⟩ := Option.map_eq_some_iff.1 ho'
        exact (H.killed b (fun _ h => hk h.symm)).mono hn ht hk'
    inj := fun x y hx hy e ne => by
      have hx : x < L.length := hx
      have hy : y < L.length := hy
      have e : (if x = s.lists.length then Tag.own else tag x) = if y = s.lists.length then Tag.own else tag y := e
      have ne : (if x = s.lists.length then Tag.own else tag x) ≠ .own := ne
      by_cases h1 : x = s.lists.length
      · rw [if_pos h1] at ne; exact absurd rfl ne
      · rw [if_neg h1] at e ne
        by_cases h2 : y = s.lists.length
        · rw [if_pos h2] at e; exact absurd e ne
        · rw [if_neg h2] at e
          exact H.inj x y (by omega) (by omega) e ne
    entlt := fun k r t m i hk e hg => by
      have hk : k < L.length := hk
      have e : (if k = s.lists.length then Tag.own else tag k) = .ent r t i := e
      by_cases h1 : k = s.lists.length
      · rw [if_pos h1] at e; cases e
      · rw [if_neg h1] at e
        exact H.entlt k r t m i (by omega) e hg
    once := fun ho k r t hk e => by
      have hk : k < L.length := hk
      have e : (if k = s.lists.length then Tag.own else tag k) = .bas r t ∨ ∃ i, (if k = s.lists.length then Tag.own else tag k) = .ent r t i := e
      by_cases h1 : k = s.lists.length
      · rw [if_pos h1] at e
        rcases e with e | ⟨_, e⟩ <;> cases e
      · rw [if_neg h1] at e
        exact H.once ho k r t (by omega) e
    part := rfl
    noact := fun h => nomatch h
    act := fun p' x e => by
      cases e
      exact ⟨_, _, rfl, hnew, if_pos rfl, rfl⟩
    use := H.use
    nseq := H.nseq
    seq := fun k q hq => by
      obtain ⟨o, x, z⟩ := H.seq k q hq
      exact ⟨o, x, z.mono hn ht⟩
    genlt := H.genlt
    addlt := H.addlt
    freelt := H.freelt }

/-- The container has contents `v`. -/
def Holds (s : St V) (v : V) : Prop := ∃ (l : Nat) (o : LObj), s.act = some l ∧ s.lists[l]? = some o ∧ o.has = true ∧ s.mem o.base = some v

/-- The active list is not freed. -/
theorem Inv.active {h : Hist V} {N : Option (Nat × Place)} {s : St V} {tag : Nat → Tag} (H : Inv pr h N s tag) {p : Nat} {x : Place} (hN : N = some (p, x)) :
    ∃ (l : Nat) (o : LObj), s.act = some l ∧ s.lists[l]? = some o ∧ AtPlace o (tag l) x ∧
      (o.live = true ↔ ∀ r t i, x = .res r t i → GenOK h r t) := by
  obtain ⟨l, o, a, b, c⟩ := H.act p x hN
  refine ⟨l, o, a, b, c, ?_⟩
  have z := H.list l o b
  unfold ListOK at z
  cases x with
  | own al =>
    rw [c.1] at z
    exact ⟨fun _ _ _ _ e => (nomatch e), fun _ => z.2.2.2 a⟩
  | res r t i =>
    have c : tag l = .ent r t i := c
    rw [c] at z
    refine z.2.2.1.trans ⟨fun hg r' t' i' e => ?_, fun hg => hg r t i rfl⟩
    cases e
    exact hg

theorem set_get (L : List LObj) {l : Nat} {o : LObj} (h : L[l]? = some o) : L.set l o = L := by
  apply List.ext_getElem?
  intro k
  rw [List.getElem?_set]
  split
  · rename_i e
    subst e
    rw [if_pos (List.getElem?_eq_some_iff.1 h).1, h]
  · rfl

theorem set_kill (L : List LObj) {f : Nat} {of : LObj} (h : L[f]? = some of) (k : Nat) :
    (if of.res = none then L.set f { of with live := false } else L)[k]? = (L[k]?).map (kill (some f) k) := by
  by_cases hk : f = k
  · subst hk
    rw [h]
    unfold kill
    by_cases hr : of.res = none
    · rw [if_pos hr, List.getElem?_set, if_pos rfl, if_pos (List.getElem?_eq_some_iff.1 h).1, Option.map_some, if_pos ⟨rfl, hr⟩]
    · rw [if_neg hr, h, Option.map_some, if_neg (fun hc => hr hc.2)]
  · have : kill (some f) k = id := by
      funext o
      unfold kill
      rw [if_neg (fun hc => hk (Option.some.inj hc.1))]
      rfl
    rw [this, Option.map_id, id]
    split
    · rw [List.getElem?_set_ne hk]
    · rfl

/-- A switch. -/
theorem Inv.transition {h : Hist V} {N : Option (Nat × Place)} {s : St V} {tag : Nat → Tag} (H : Inv pr h N s tag) (hu : UseOK h)
    (hp : ∀ p r t i, N = some (p, .res r t i) → GenOK h r t) (p : Nat) (keep : Bool) :
    ∃ s' l s'' tag', prepareMaps s p = .ok (s', l) ∧ doTransition s' s.act l keep = .ok s'' ∧
      Inv pr h (some (p, placeFor h p true)) { s'' with part := some p, act := some l } tag' ∧
      (∀ k r t i, k < s.lists.length → tag k = .ent r t i → (k = l ↔ placeFor h p true = .res r t i)) ∧
      (keep = true → ∀ v, Holds s v → (∀ f r t i t' i', N = some (f, .res r t i) → placeFor h p true = .res r t' i' → t = t') →
        Holds { s'' with part := some p, act := some l } v) := by
  rcases H.prepare hu p true with ⟨e1, e2⟩ | ⟨l, o, r, t, i, e1, e2, e3, e4, e5⟩
  · -- new list
    rw [e1]
    have hnew : (s.lists ++ [LObj.mk true none false s.lists.length])[s.lists.length]? = some ⟨true, none, false, s.lists.length⟩ := by
      rw [List.getElem?_append_right (Nat.le_refl _), Nat.sub_self]; rfl
    have hset : ∀ k : Nat, ((s.lists ++ [LObj.mk true none false s.lists.length]).set s.lists.length ⟨true, none, true, s.lists.length⟩)[k]? =
        if k = s.lists.length then some ⟨true, none, true, s.lists.length⟩ else s.lists[k]? := by
      intro k
      rw [List.getElem?_set]
      by_cases hk : s.lists.length = k
      · rw [if_pos hk, if_pos hk.symm, if_pos (by simp)]
      · rw [if_neg hk, if_neg (Ne.symm hk)]
        rcases Nat.lt_or_ge k s.lists.length with h1 | h1
        · rw [List.getElem?_append_left h1]
        · rw [List.getElem?_eq_none (by simp; omega), List.getElem?_eq_none h1]
    have hcmp : ∀ k r t i, k < s.lists.length → tag k = .ent r t i → (k = s.lists.length ↔ Place.own true = .res r t i) :=
      fun k r t i hk _ => ⟨fun e => by omega, fun e => nomatch e⟩
    cases ha : s.act with
    | none =>
      refine ⟨_, _, ?_, (fun k => if k = s.lists.length then .own else tag k), e2, ?_, ?_, hcmp, ?_⟩
      · exact { s with lists := (s.lists ++ [LObj.mk true none false s.lists.length]).set s.lists.length ⟨true, none, true, s.lists.length⟩ }
      · unfold doTransition
        rw [getList_ok (s := { s with lists := s.lists ++ [LObj.mk true none false s.lists.length] }) hnew rfl]
      · refine H.move_own (by simp) (by rw [hset, if_pos rfl]) (fun k hk => ?_) p s.mem
        rw [hset, if_neg (by omega), ha]
        have : kill none k = id := by funext o; unfold kill; rw [if_neg (fun hc => nomatch hc.1)]; rfl
        rw [this, Option.map_id, id]
      · rintro _ v ⟨l, o, hl, _⟩ _
        rw [ha] at hl
        cases hl
    | some f =>
      cases hN : N with
      | none => have := H.noact hN; rw [ha] at this; cases this
      | some px =>
        obtain ⟨pf, x⟩ := px
        obtain ⟨f', of, a1, a2, a3, a4⟩ := H.active hN
        rw [ha] at a1
        cases a1
        have hlive : of.live = true := a4.2 (fun r t i e => hp pf r t i (by rw [hN, e]))
        have hf : f < s.lists.length := (List.getElem?_eq_some_iff.1 a2).1
        have hof : (s.lists ++ [LObj.mk true none false s.lists.length])[f]? = some of := by rw [List.getElem?_append_left hf]; exact a2
        have hof2 : ((s.lists ++ [LObj.mk true none false s.lists.length]).set s.lists.length ⟨true, none, true, s.lists.length⟩)[f]? = some of := by
          rw [hset, if_neg (by omega)]; exact a2
        refine ⟨_, _, ?_, (fun k => if k = s.lists.length then .own else tag k), e2, ?_, ?_, hcmp, ?_⟩
        · exact { s with
            mem := if keep = true ∧ ¬ (of.res ≠ none ∧ of.res = none) ∧ of.has = true then upd s.mem s.lists.length (s.mem of.base) else s.mem
            lists := if of.res = none then ((s.lists ++ [LObj.mk true none false s.lists.length]).set s.lists.length ⟨true, none, true, s.lists.length⟩).set f { of with live := false }
              else (s.lists ++ [LObj.mk true none false s.lists.length]).set s.lists.length ⟨true, none, true, s.lists.length⟩ }
        · unfold doTransition
          rw [getList_ok (s := { s with lists := s.lists ++ [LObj.mk true none false s.lists.length] }) hnew rfl]
          simp only
          rw [getList_ok (s := { s with lists := s.lists ++ [LObj.mk true none false s.lists.length] }) hof hlive]
        · refine H.move_own ?_ ?_ (fun k hk => ?_) p _
          · split <;> simp
          · rw [set_kill _ hof2, hset, if_pos rfl]
            unfold kill
            rw [Option.map_some, if_neg (fun hc => by have := Option.some.inj hc.1; omega)]
          · rw [set_kill _ hof2, hset, if_neg (by omega), ha]
        · rintro hk v ⟨l', o', b1, b2, b3, b4⟩ _
          rw [ha] at b1
          cases b1
          rw [a2] at b2
          cases b2
          refine ⟨_, ⟨true, none, true, s.lists.length⟩, rfl, ?_, rfl, ?_⟩
          · simp only
            rw [set_kill _ hof2, hset, if_pos rfl]
            unfold kill
            rw [Option.map_some, if_neg (fun hc => by have := Option.some.inj hc.1; omega)]
          · simp only
            rw [if_pos ⟨hk, fun hc => hc.1 hc.2, b3⟩]
            unfold upd
            rw [if_pos rfl]
            exact b4
  · -- list of a reservation
    rw [e1]
    have hlt := (List.getElem?_eq_some_iff.1 e3).1
    have hol := H.list l o e3
    unfold ListOK at hol
    rw [e5] at hol
    have hsame : ({ o with has := true } : LObj) = o := by
      have := hol.2.1
      cases o
      simp only at this
      rw [this]
    have hset : s.lists.set l { o with has := true } = s.lists := by rw [hsame]; exact set_get _ e3
    have hcmp : ∀ k r' t' i', k < s.lists.length → tag k = .ent r' t' i' → (k = l ↔ Place.res r t i = .res r' t' i') := by
      intro k r' t' i' hk hkt
      constructor
      · rintro rfl
        rw [e5] at hkt
        cases hkt
        rfl
      · intro e
        cases e
        exact H.inj k l hk hlt (hkt.trans e5.symm) (by rw [hkt]; exact fun h => nomatch h)
    cases ha : s.act with
    | none =>
      refine ⟨_, _, s, tag, e2, ?_, ?_, hcmp, ?_⟩
      · unfold doTransition
        rw [getList_ok e3 e4]
        simp only
        rw [hset]
      · refine H.move_res e3 e5 (L := s.lists) (fun k => ?_) p s.mem
        rw [ha]
        have : kill none k = id := by funext o; unfold kill; rw [if_neg (fun hc => nomatch hc.1)]; rfl
        rw [this, Option.map_id, id]
      · rintro _ v ⟨l, o, hl, _⟩ _
        rw [ha] at hl
        cases hl
    | some f =>
      cases hN : N with
      | none => have := H.noact hN; rw [ha] at this; cases this
      | some px =>
        obtain ⟨pf, x⟩ := px
        obtain ⟨f', of, a1, a2, a3, a4⟩ := H.active hN
        rw [ha] at a1
        cases a1
        have hlive : of.live = true := a4.2 (fun r t i e => hp pf r t i (by rw [hN, e]))
        refine ⟨_, _, ?_, tag, e2, ?_, ?_, hcmp, ?_⟩
        · exact { s with
            mem := if keep = true ∧ ¬ (of.res ≠ none ∧ of.res = o.res) ∧ of.has = true then upd s.mem o.base (s.mem of.base) else s.mem
            lists := if of.res = none then s.lists.set f { of with live := false } else s.lists }
        · unfold doTransition
          rw [getList_ok e3 e4]
          simp only
          rw [getList_ok a2 hlive, hset]
        · refine H.move_res e3 e5 (fun k => ?_) p _
          rw [set_kill _ a2, ha]
        · rintro hk v ⟨l', o', b1, b2, b3, b4⟩ hx
          rw [ha] at b1
          cases b1
          rw [a2] at b2
          cases b2
          refine ⟨l, o, rfl, ?_, hol.2.1, ?_⟩
          · simp only
            rw [set_kill _ a2, e3]
            unfold kill
            rw [Option.map_some, if_neg (fun hc => by rw [hol.1] at hc; cases hc.2)]
          · simp only
            by_cases hsr : of.res ≠ none ∧ of.res = o.res
            · rw [if_neg (fun hc => hc.2.1 hsr)]
              -- same reservation: same memory
              have hof := H.list f of a2
              unfold ListOK at hof
              cases x with
              | own al =>
                rw [a3.1] at hof
                exact absurd hof.1 hsr.1
              | res r' t' i' =>
                have a3 : tag f = .ent r' t' i' := a3
                rw [a3] at hof
                have hr : r' = r := by
                  have := hsr.2
                  rw [hof.1, hol.1] at this
                  exact Option.some.inj this
                subst hr
                have ht := hx pf r' t' i' t i rfl rfl
                subst ht
                have := H.inj of.base o.base hof.2.2.2.2.1 hol.2.2.2.2.1 (hof.2.2.2.2.2.trans hol.2.2.2.2.2.symm)
                  (by rw [hof.2.2.2.2.2]; exact fun h => nomatch h)
                rw [← this]
                exact b4
            · rw [if_pos ⟨hk, hsr, b3⟩]
              unfold upd
              rw [if_pos rfl]
              exact b4

end

end Laik.Rl
