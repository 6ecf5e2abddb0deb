import Verif.Model.ResLifeSteps
/-!
# Lists and reservations: calls of the application
-/

namespace Laik.Rl

section
variable {V : Type} {pr : Bool} {h : Hist V} {s : St V} {tag : Nat → Tag}

/-- The container has the contents it should have. -/
def Cont (pr : Bool) (h : Hist V) (s : St V) : Prop := ∀ v, content pr h = some v → Holds s v

/-- A call keeps contents if not done between allocations of one reservation. -/
def CrossOK (pr : Bool) (h : Hist V) (c : Call V) : Prop :=
  ∀ p, keeps pr h c = some p → ∀ f r t i t' i', now pr h = some (f, .res r t i) → placeFor h p true = .res r t' i' → t = t'

/-- What is shown of each call. -/
def StepOK (pr : Bool) (h : Hist V) (s : St V) (c : Call V) : Prop :=
  (Allowed pr h c → ∃ s' tag', step pr s c = .ok s' ∧ Inv pr (c :: h) (now pr (c :: h)) s' tag' ∧
    (Cont pr h s → CrossOK pr h c → Cont pr (c :: h) s')) ∧
  (¬ Allowed pr h c → ∃ e, step pr s c = .error e)

theorem step_new (H : Inv pr h (now pr h) s tag) : StepOK pr h s .new := by
  refine ⟨fun _ => ⟨_, tag, rfl, ?_, fun hc _ => hc⟩, fun hn => absurd trivial hn⟩
  have hg0 : gen h (made h) = none := by
    cases e : gen h (made h) with
    | none => rfl
    | some g => have := (H.genlt _ g.1 g.2 e).1; omega
  exact {
    nres := by simp [H.nres, made]
    res := fun r o ho => by
      have ho : (s.ress ++ [RObj.mk true [] none])[r]? = some o := ho
      rcases Nat.lt_or_ge r s.ress.length with hr | hr
      · rw [List.getElem?_append_left hr] at ho
        have x := H.res r o ho
        exact ⟨x.live, x.adds, x.ent, x.full, x.base, x.based⟩
      · rw [List.getElem?_append_right hr] at ho
        have hr' : r = made h := by
          have := (List.getElem?_eq_some_iff.1 ho).1
          simp at this
          rw [← H.nres]
          omega
        subst hr'
        rw [H.nres, Nat.sub_self] at ho
        cases ho
        have hg : gen (Call.new :: h) (made h) = none := hg0
        exact {
          live := ⟨fun _ hf => by have := H.freelt _ hf; omega, fun _ => rfl⟩
          adds := (H.addlt _ (Nat.le_refl _)).symm
          ent := fun i p l e => by simp at e
          full := fun t m i e => by rw [hg] at e; cases e
          base := fun b e => nomatch e
          based := fun t m e => by rw [hg] at e; cases e }
    list := fun l o ho => (H.list l o ho).same (h := h) (h' := Call.new :: h) (fun _ _ _ => Iff.rfl) (Nat.le_succ _)
    inj := H.inj
    entlt := H.entlt
    once := H.once
    part := H.part
    noact := H.noact
    act := H.act
    use := H.use
    nseq := H.nseq
    seq := H.seq
    genlt := fun r t m e => by
      obtain ⟨a, b, c⟩ := H.genlt r t m e
      exact ⟨Nat.lt_succ_of_lt a, Nat.lt_succ_of_lt b, c⟩
    addlt := fun r hr => H.addlt r (Nat.le_of_succ_le hr)
    freelt := fun r hr => Nat.lt_succ_of_lt (H.freelt r hr) }

theorem get_set {α : Type} {L : List α} {r k : Nat} {a b : α} (h : (L.set r a)[k]? = some b) : (k = r ∧ b = a) ∨ (k ≠ r ∧ L[k]? = some b) := by
  rw [List.getElem?_set] at h
  by_cases e : r = k
  · rw [if_pos e] at h
    split at h
    · cases h; exact Or.inl ⟨e.symm, rfl⟩
    · cases h
  · rw [if_neg e] at h
    exact Or.inr ⟨Ne.symm e, h⟩

theorem step_add (H : Inv pr h (now pr h) s tag) (r p : Nat) : StepOK pr h s (.add r p) := by
  refine ⟨fun ha => ?_, fun hn => ?_⟩
  · obtain ⟨o, h1, h2, x⟩ := H.getRes ha
    have e1 : step pr s (.add r p) = (match getRes s r with
      | .error e => .error e
      | .ok o => .ok { s with ress := s.ress.set r { o with entries := o.entries ++ [(p, none)] } }) := rfl
    rw [h1] at e1
    refine ⟨_, tag, e1, ?_, fun hc _ => hc⟩
    have had : ∀ r', r' ≠ r → adds (Call.add r p :: h) r' = adds h r' := fun r' hr => by
      show (if r = r' then _ else _) = _
      rw [if_neg (Ne.symm hr)]
    have had' : adds (Call.add r p :: h) r = adds h r ++ [p] := by
      show (if r = r then _ else _) = _
      rw [if_pos rfl]
    exact {
      nres := by
        show (s.ress.set r _).length = _
        rw [List.length_set]
        exact H.nres
      res := fun r' o' ho => by
        rcases get_set ho with ⟨rfl, rfl⟩ | ⟨hne, ho⟩
        · have hlen : o.entries.length = (adds h r').length := by rw [← x.adds, List.length_map]
          exact {
            live := x.live
            adds := by rw [had', List.map_append, x.adds]; rfl
            ent := fun i q l e => by
              rcases Nat.lt_or_ge i o.entries.length with hi | hi
              · rw [List.getElem?_append_left hi] at e
                exact x.ent i q l e
              · rw [List.getElem?_append_right hi] at e
                have := List.mem_of_getElem? e
                simp at this
            full := fun t m i e hi => by
              obtain ⟨q, l, e'⟩ := x.full t m i e hi
              exact ⟨q, l, by rw [List.getElem?_append_left (List.getElem?_eq_some_iff.1 e').1]; exact e'⟩
            base := x.base
            based := x.based }
        · have x' := H.res r' o' ho
          exact ⟨x'.live, by rw [had r' hne]; exact x'.adds, x'.ent, x'.full, x'.base, x'.based⟩
      list := fun l o ho => (H.list l o ho).same (h := h) (h' := Call.add r p :: h) (fun _ _ _ => Iff.rfl) (Nat.le_succ _)
      inj := H.inj
      entlt := H.entlt
      once := H.once
      part := H.part
      noact := H.noact
      act := H.act
      use := H.use
      nseq := H.nseq
      seq := H.seq
      genlt := fun r' t m e => by
        obtain ⟨a, b, c, d⟩ := H.genlt r' t m e
        refine ⟨a, Nat.lt_succ_of_lt b, ?_, d⟩
        by_cases hr : r' = r
        · subst hr; rw [had', List.length_append]; omega
        · rw [had r' hr]; exact c
      addlt := fun r' hr => by
        have hr : made h ≤ r' := hr
        have ha1 := ha.1
        rw [had r' (by omega)]
        exact H.addlt r' hr
      freelt := H.freelt }
  · refine ⟨.ub, ?_⟩
    show (match getRes s r with | .error e => (Except.error e : Except Fault (St V)) | .ok o => _) = _
    rw [H.getRes_bad hn]

theorem step_use (H : Inv pr h (now pr h) s tag) (r : Option Nat) : StepOK pr h s (.use r) := by
  refine ⟨fun ha => ?_, fun hn => ?_⟩
  · obtain ⟨r, rfl, ha⟩ := ha
    obtain ⟨o, h1, h2, x⟩ := H.getRes ha
    have e1 : step pr s (.use (some r)) = (match getRes s r with
      | .error e => .error e
      | .ok _ => .ok { s with use := some r }) := rfl
    rw [h1] at e1
    refine ⟨_, tag, e1, ?_, fun hc _ => hc⟩
    exact {
      nres := H.nres
      res := fun r o ho => by
        have x := H.res r o ho
        exact ⟨x.live, x.adds, x.ent, x.full, x.base, x.based⟩
      list := fun l o ho => (H.list l o ho).same (h := h) (h' := Call.use _ :: h) (fun _ _ _ => Iff.rfl) (Nat.le_succ _)
      inj := H.inj
      entlt := H.entlt
      once := H.once
      part := H.part
      noact := H.noact
      act := H.act
      use := rfl
      nseq := H.nseq
      seq := H.seq
      genlt := fun r t m e => by
        obtain ⟨a, b, c⟩ := H.genlt r t m e
        exact ⟨a, Nat.lt_succ_of_lt b, c⟩
      addlt := H.addlt
      freelt := H.freelt }
  · cases r with
    | none => exact ⟨_, rfl⟩
    | some r =>
      refine ⟨.ub, ?_⟩
      show (match getRes s r with | .error e => (Except.error e : Except Fault (St V)) | .ok o => _) = _
      rw [H.getRes_bad (fun hi => hn ⟨r, rfl, hi⟩)]

theorem step_alloc (H : Inv pr h (now pr h) s tag) (r : Nat) : StepOK pr h s (.alloc r) := by
  refine ⟨fun ha => ?_, fun hn => ?_⟩
  · obtain ⟨o, h1, h2, x⟩ := H.getRes ha
    have hlen : o.entries.length = (adds h r).length := by rw [← x.adds, List.length_map]
    by_cases he : o.entries = []
    · have h0 : adds h r = [] := List.eq_nil_of_length_eq_zero (by rw [← hlen, he]; rfl)
      refine ⟨s, tag, by show resAlloc s r = _; unfold resAlloc; rw [h1]; simp only; rw [if_pos he], ?_, fun hc _ => hc⟩
      refine H.same (h := h) (h' := Call.alloc r :: h) ⟨rfl, fun _ => Iff.rfl, fun _ => rfl, fun r' => ?_, rfl, rfl, Nat.le_succ _, fun h => h.1⟩
      show (if r = r' ∧ adds h r' ≠ [] then _ else _) = _
      rw [if_neg]
      rintro ⟨rfl, hne⟩
      exact hne h0
    · have h0 : adds h r ≠ [] := fun e => he (List.eq_nil_of_length_eq_zero (by rw [hlen, e]; rfl))
      have hg : gen (Call.alloc r :: h) r = some (h.length, (adds h r).length) := by
        show (if r = r ∧ adds h r ≠ [] then _ else _) = _
        rw [if_pos ⟨rfl, h0⟩]
      have hg' : ∀ r', r' ≠ r → gen (Call.alloc r :: h) r' = gen h r' := fun r' hr => by
        show (if r = r' ∧ adds h r' ≠ [] then _ else _) = _
        rw [if_neg (fun hc => hr hc.1.symm)]
      have hgen : ∀ r' t, GenOK (Call.alloc r :: h) r' t ↔ GenOK h r' t := by
        intro r' t
        by_cases hr : r' = r
        · subst hr
          exact ⟨fun _ hc => ha.2 hc.1, fun _ hc => ha.2 hc.1⟩
        · unfold GenOK
          rw [hg' r' hr]
          exact Iff.rfl
      let n := s.lists.length
      let tag' : Nat → Tag := fun k => if k < n then tag k else if k = n then .bas r h.length else .ent r h.length (k - n - 1)
      have ht : ∀ k < n, tag' k = tag k := fun k hk => if_pos hk
      have htb : tag' n = .bas r h.length := by
        show (if n < n then _ else if n = n then _ else _) = _
        rw [if_neg (Nat.lt_irrefl n), if_pos rfl]
      have hte : ∀ i, tag' (n + 1 + i) = .ent r h.length i := fun i => by
        show (if n + 1 + i < n then _ else if n + 1 + i = n then _ else _) = _
        rw [if_neg (by omega), if_neg (by omega)]
        congr 1
        omega
      let L := s.lists ++ LObj.mk true none true n :: List.replicate o.entries.length (LObj.mk true (some r) true n)
      have hL : L.length = n + 1 + o.entries.length := by
        show (s.lists ++ _ :: _).length = _
        rw [List.length_append, List.length_cons, List.length_replicate]
        omega
      have hnL : n ≤ L.length := by omega
      have hold : ∀ k : Nat, k < n → L[k]? = s.lists[k]? := fun k hk => List.getElem?_append_left hk
      have hLn : L[n]? = some (LObj.mk true none true n) := by
        show (s.lists ++ _)[s.lists.length]? = _
        rw [List.getElem?_append_right (Nat.le_refl _), Nat.sub_self]
        rfl
      have hLe : ∀ i, i < o.entries.length → L[n + 1 + i]? = some (LObj.mk true (some r) true n) := by
        intro i hi
        show (s.lists ++ _)[s.lists.length + 1 + i]? = _
        rw [List.getElem?_append_right (by omega), show s.lists.length + 1 + i - s.lists.length = i + 1 by omega, List.getElem?_cons_succ,
          List.getElem?_replicate, if_pos hi]
      -- tags of old lists are of older allocations
      have hnew : ∀ k < n, ∀ r' i, tag k ≠ .bas r' h.length ∧ tag k ≠ .ent r' h.length i := by
        intro k hk r' i
        have y := H.list k _ (List.getElem?_eq_getElem hk)
        unfold ListOK at y
        constructor
        · intro e
          rw [e] at y
          exact Nat.lt_irrefl _ y.2.2
        · intro e
          rw [e] at y
          exact Nat.lt_irrefl _ y.2.2.2.1
      have hcase : ∀ k < L.length, k < n ∨ k = n ∨ ∃ i, i < o.entries.length ∧ k = n + 1 + i := by
        intro k hk
        rcases Nat.lt_trichotomy k n with h | h | h
        · exact Or.inl h
        · exact Or.inr (Or.inl h)
        · exact Or.inr (Or.inr ⟨k - n - 1, by omega, by omega⟩)
      refine ⟨_, tag', by show resAlloc s r = _; unfold resAlloc; rw [h1]; simp only; rw [if_neg he], ?_, ?_⟩
      · exact {
          nres := by
            show (s.ress.set r _).length = _
            rw [List.length_set]
            exact H.nres
          res := fun r' o' ho => by
            show ResOK _ L.length tag' r' o'
            rcases get_set ho with ⟨rfl, rfl⟩ | ⟨hne, ho⟩
            · exact {
                live := x.live
                adds := by
                  show _ = adds h r'
                  rw [← x.adds]
                  apply List.ext_getElem?
                  intro i
                  rw [List.getElem?_map, List.getElem?_mapIdx, List.getElem?_map, Option.map_map]
                  rfl
                ent := fun i p l e => by
                  rw [List.getElem?_mapIdx] at e
                  obtain ⟨e0, a, b⟩ := Option.map_eq_some_iff.1 e
                  have hi := (List.getElem?_eq_some_iff.1 a).1
                  cases b
                  exact ⟨_, _, hg, by omega, by omega, hte i⟩
                full := fun t m i e hi => by
                  rw [hg] at e
                  cases e
                  have hi' : i < o.entries.length := by omega
                  refine ⟨(o.entries[i]).1, n + 1 + i, ?_⟩
                  rw [List.getElem?_mapIdx, List.getElem?_eq_getElem hi']
                  rfl
                base := fun b e => by
                  cases e
                  exact ⟨_, _, hg, by omega, htb⟩
                based := fun t m e => ⟨_, rfl⟩ }
            · have x' := (H.res r' o' ho).mono hnL ht
              exact ⟨x'.live, x'.adds, by rw [hg' r' hne]; exact x'.ent, by rw [hg' r' hne]; exact x'.full,
                by rw [hg' r' hne]; exact x'.base, by rw [hg' r' hne]; exact x'.based⟩
          list := fun k o' ho => by
            have ho : L[k]? = some o' := ho
            show ListOK _ L.length tag' s.act k o'
            rcases hcase k (List.getElem?_eq_some_iff.1 ho).1 with hk | rfl | ⟨i, hi, rfl⟩
            · rw [hold k hk] at ho
              exact ((H.list k o' ho).mono hnL ht hk).same (fun r' t _ => hgen r' t) (Nat.le_succ _)
            · rw [hLn] at ho
              cases ho
              unfold ListOK
              rw [htb]
              exact ⟨rfl, ⟨fun _ hc => ha.2 hc.1, fun _ => rfl⟩, Nat.lt_succ_self _⟩
            · rw [hLe i hi] at ho
              cases ho
              unfold ListOK
              rw [hte]
              exact ⟨rfl, rfl, ⟨fun _ hc => ha.2 hc.1, fun _ => rfl⟩, Nat.lt_succ_self _, by show n < L.length; omega, htb⟩
          inj := fun a b ha hb e ne => by
            rcases hcase a ha with h1 | h1 | ⟨i, hi, h1⟩ <;> rcases hcase b hb with h2 | h2 | ⟨j, hj, h2⟩
            · rw [ht a h1, ht b h2] at e
              rw [ht a h1] at ne
              exact H.inj a b h1 h2 e ne
            · rw [h2, htb, ht a h1] at e; exact absurd e (hnew a h1 r 0).1
            · rw [h2, hte, ht a h1] at e; exact absurd e (hnew a h1 r j).2
            · rw [h1, htb, ht b h2] at e; exact absurd e.symm (hnew b h2 r 0).1
            · omega
            · rw [h1, h2, htb, hte] at e; cases e
            · rw [h1, hte, ht b h2] at e; exact absurd e.symm (hnew b h2 r i).2
            · rw [h1, h2, htb, hte] at e; cases e
            · rw [h1, h2, hte, hte] at e; cases e; omega
          entlt := fun k r' t m i hk e hgk => by
            rcases hcase k hk with hk1 | hk1 | ⟨j, hj, hk1⟩
            · rw [ht k hk1] at e
              by_cases hr : r' = r
              · subst hr
                rw [hg] at hgk
                cases hgk
                exact absurd e (hnew k hk1 r' i).2
              · rw [hg' r' hr] at hgk
                exact H.entlt k r' t m i hk1 e hgk
            · rw [hk1, htb] at e; cases e
            · rw [hk1, hte] at e
              cases e
              rw [hg] at hgk
              cases hgk
              omega
          once := fun ho k r' t hk e => by
            rcases hcase k hk with hk1 | hk1 | ⟨j, hj, hk1⟩
            · rw [ht k hk1] at e
              obtain ⟨m, hm⟩ := H.once ho.1 k r' t hk1 e
              by_cases hr : r' = r
              · subst hr
                rw [ho.2] at hm
                cases hm
              · exact ⟨m, by rw [hg' r' hr]; exact hm⟩
            · rw [hk1, htb] at e
              rcases e with e | ⟨_, e⟩
              · cases e
                exact ⟨_, hg⟩
              · cases e
            · rw [hk1, hte] at e
              rcases e with e | ⟨_, e⟩
              · cases e
              · cases e
                exact ⟨_, hg⟩
          part := H.part
          noact := H.noact
          act := fun p y e => by
            obtain ⟨l, o', a, b, c⟩ := H.act p y e
            have hl := (List.getElem?_eq_some_iff.1 b).1
            exact ⟨l, o', a, (hold l hl).trans b, by rw [ht l hl]; exact c⟩
          use := H.use
          nseq := H.nseq
          seq := fun k q hq => by
            obtain ⟨o', a, b⟩ := H.seq k q hq
            exact ⟨o', a, b.mono hnL ht⟩
          genlt := fun r' t m e => by
            by_cases hr : r' = r
            · subst hr
              rw [hg] at e
              cases e
              exact ⟨ha.1, Nat.lt_succ_self _, Nat.le_refl _, List.length_pos_iff.2 h0⟩
            · rw [hg' r' hr] at e
              obtain ⟨a, b, c⟩ := H.genlt r' t m e
              exact ⟨a, Nat.lt_succ_of_lt b, c⟩
          addlt := H.addlt
          freelt := H.freelt }
      · intro hc _ v hv
        obtain ⟨l, o', a, b, c⟩ := hc v hv
        exact ⟨l, o', a, (hold l (List.getElem?_eq_some_iff.1 b).1).trans b, c⟩
  · show ∃ e, resAlloc s r = _
    unfold resAlloc
    rw [H.getRes_bad hn]
    exact ⟨_, rfl⟩

/-! ### Free -/

/-- Lists `ids` freed. -/
def dead (ids : List Nat) (k : Nat) (o : LObj) : LObj := if k ∈ ids then { o with live := false } else o

theorem freeEntries_ok : ∀ (es : List (Nat × Option Nat)) (ls : List LObj), (∀ e ∈ es, ∃ l o, e.2 = some l ∧ ls[l]? = some o ∧ o.live = true) →
    (es.filterMap (·.2)).Nodup →
    ∃ L, freeEntries ls es = .ok L ∧ ∀ k : Nat, L[k]? = (ls[k]?).map (dead (es.filterMap (·.2)) k) := by
  intro es
  induction es with
  | nil =>
    intro ls _ _
    refine ⟨ls, rfl, fun k => ?_⟩
    have : dead [] k = id := by funext o; unfold dead; rw [if_neg (by simp)]; rfl
    show _ = (ls[k]?).map (dead [] k)
    rw [this, Option.map_id, id]
  | cons e es ih =>
    intro ls h1 h2
    obtain ⟨p, x⟩ := e
    obtain ⟨l, o, e1, e2, e3⟩ := h1 (p, x) List.mem_cons_self
    have e1 : x = some l := e1
    subst e1
    have hfm : ((p, some l) :: es).filterMap (·.2) = l :: es.filterMap (·.2) := rfl
    rw [hfm] at h2 ⊢
    obtain ⟨hl, h2⟩ := List.nodup_cons.1 h2
    obtain ⟨L, a, b⟩ := ih (ls.set l { o with live := false }) (by
      intro e he
      obtain ⟨l', o', f1, f2, f3⟩ := h1 e (List.mem_cons_of_mem _ he)
      refine ⟨l', o', f1, ?_, f3⟩
      rw [List.getElem?_set_ne]
      · exact f2
      · rintro rfl
        exact hl (List.mem_filterMap.2 ⟨e, he, f1⟩)) h2
    refine ⟨L, ?_, fun k => ?_⟩
    · unfold freeEntries
      rw [e2]
      simp only
      rw [if_pos e3]
      exact a
    · rw [b, List.getElem?_set]
      by_cases hk : l = k
      · subst hk
        rw [if_pos rfl, if_pos (List.getElem?_eq_some_iff.1 e2).1, e2, Option.map_some, Option.map_some]
        unfold dead
        rw [if_neg hl, if_pos List.mem_cons_self]
      · rw [if_neg hk]
        congr 1
        funext o
        unfold dead
        by_cases hm : k ∈ es.filterMap (·.2)
        · rw [if_pos hm, if_pos (List.mem_cons_of_mem _ hm)]
        · rw [if_neg hm, if_neg]
          intro hc
          rcases List.mem_cons.1 hc with hc | hc
          · exact hk hc.symm
          · exact hm hc

theorem freeEntries_bad : ∀ (es : List (Nat × Option Nat)) (ls : List LObj), (∃ e ∈ es, e.2 = none) → ∃ f, freeEntries ls es = .error f := by
  intro es
  induction es with
  | nil => rintro ls ⟨e, he, _⟩; cases he
  | cons e es ih =>
    rintro ls ⟨e', he', hn⟩
    obtain ⟨p, x⟩ := e
    cases x with
    | none => exact ⟨_, rfl⟩
    | some l =>
      have he' : e' ∈ es := by
        rcases List.mem_cons.1 he' with rfl | h
        · cases hn
        · exact h
      unfold freeEntries
      cases ls[l]? with
      | none => exact ⟨_, rfl⟩
      | some o =>
        simp only
        split
        · exact ih _ ⟨e', he', hn⟩
        · exact ⟨_, rfl⟩

theorem step_free (H : Inv pr h (now pr h) s tag) (r : Nat) : StepOK pr h s (.free r) := by
  by_cases hu : InUse h r
  · obtain ⟨o, h1, h2, x⟩ := H.getRes hu
    have hlen : o.entries.length = (adds h r).length := by rw [← x.adds, List.length_map]
    refine ⟨fun ha => ?_, fun hn => ?_⟩
    · -- lists of entries
      have hent : ∀ e ∈ o.entries, ∃ (l i t m : Nat), e.2 = some l ∧ gen h r = some (t, m) ∧ l < s.lists.length ∧ tag l = .ent r t i := by
        intro e he
        obtain ⟨i, hi, e0⟩ := List.mem_iff_getElem.1 he
        rcases ha.2 with ha | ⟨t, ha⟩
        · rw [ha] at hlen
          have : o.entries.length = 0 := hlen
          omega
        · obtain ⟨p, l, e1⟩ := x.full t _ i ha (by omega)
          obtain ⟨t', m', f1, f2, f3, f4⟩ := x.ent i p l e1
          rw [List.getElem?_eq_getElem hi, e0] at e1
          cases e1
          exact ⟨l, i, t', m', rfl, f1, f3, f4⟩
      have hlive : ∀ l t, l < s.lists.length → (tag l = .bas r t ∨ ∃ i, tag l = .ent r t i) → ∃ o', s.lists[l]? = some o' ∧ o'.live = true := by
        intro l t hl ht
        have e := List.getElem?_eq_getElem hl
        have y := H.list l _ e
        unfold ListOK at y
        refine ⟨_, e, ?_⟩
        rcases ht with ht | ⟨i, ht⟩
        · rw [ht] at y
          exact y.2.1.2 (fun hc => hu.2 hc.1)
        · rw [ht] at y
          exact y.2.2.1.2 (fun hc => hu.2 hc.1)
      have hnd : (o.entries.filterMap (·.2)).Nodup := by
        rw [List.nodup_iff_pairwise_ne, List.pairwise_filterMap, List.pairwise_iff_getElem]
        intro i j hi hj hij a ea b eb hab
        subst hab
        have hi1 := List.getElem?_eq_getElem hi
        have hj1 := List.getElem?_eq_getElem hj
        obtain ⟨t, m, _, _, _, f1⟩ := x.ent i (o.entries[i]).1 a (by rw [hi1]; congr 1; exact Prod.ext rfl ea)
        obtain ⟨t', m', _, _, _, f2⟩ := x.ent j (o.entries[j]).1 a (by rw [hj1]; congr 1; exact Prod.ext rfl eb)
        rw [f1] at f2
        cases f2
        omega
      obtain ⟨L, g1, g2⟩ := freeEntries_ok o.entries s.lists (fun e he => by
        obtain ⟨l, i, t, m, a, b, c, d⟩ := hent e he
        obtain ⟨o', e1, e2⟩ := hlive l t c (Or.inr ⟨i, d⟩)
        exact ⟨l, o', a, e1, e2⟩) hnd
      -- all lists freed
      have key : ∃ (ids : List Nat) (L' : List LObj), resFree s r = .ok { s with lists := L', ress := s.ress.set r { o with live := false } } ∧
          (∀ k : Nat, L'[k]? = (s.lists[k]?).map (dead ids k)) ∧
          (∀ k < s.lists.length, k ∈ ids ↔ ∃ t m, gen h r = some (t, m) ∧ (tag k = .bas r t ∨ ∃ i, tag k = .ent r t i)) := by
        have hids : ∀ k < s.lists.length, k ∈ o.entries.filterMap (·.2) ↔ ∃ t m i, gen h r = some (t, m) ∧ tag k = .ent r t i := by
          intro k hk
          constructor
          · intro hm
            obtain ⟨e, he, e'⟩ := List.mem_filterMap.1 hm
            obtain ⟨l, i, t, m, a, b, c, d⟩ := hent e he
            have e' : e.2 = some k := e'
            rw [e'] at a
            cases a
            exact ⟨t, m, i, b, d⟩
          · rintro ⟨t, m, i, a, b⟩
            -- the entry with this number has this list
            rcases ha.2 with ha | ⟨t', ha⟩
            · obtain ⟨_, _, c, d⟩ := H.genlt r t m a
              rw [ha] at c
              have : m ≤ 0 := c
              omega
            · rw [a] at ha
              have hm : m = (adds h r).length := by cases ha; rfl
              by_cases hi : i < m
              · obtain ⟨p, l, e1⟩ := x.full t m i a hi
                obtain ⟨t2, m2, f1, f2, f3, f4⟩ := x.ent i p l e1
                rw [a] at f1
                cases f1
                have := H.inj k l hk f3 (b.trans f4.symm) (by rw [b]; exact fun h => nomatch h)
                subst this
                exact List.mem_filterMap.2 ⟨_, List.mem_of_getElem? e1, rfl⟩
              · exact absurd (H.entlt k r t m i hk b a) hi
        unfold resFree
        rw [h1]
        simp only
        rw [g1]
        simp only
        cases hb : o.base with
        | none =>
          refine ⟨_, L, rfl, g2, fun k hk => ?_⟩
          rw [hids k hk]
          constructor
          · rintro ⟨t, m, i, a, _⟩
            obtain ⟨b, e⟩ := x.based t m a
            rw [hb] at e
            cases e
          · rintro ⟨t, m, a, _⟩
            obtain ⟨b, e⟩ := x.based t m a
            rw [hb] at e
            cases e
        | some b =>
          obtain ⟨t, m, b1, b2, b3⟩ := x.base b hb
          obtain ⟨ob, b4, b5⟩ := hlive b t b2 (Or.inl b3)
          have hnot : b ∉ o.entries.filterMap (·.2) := by
            rw [hids b b2]
            rintro ⟨_, _, _, _, e⟩
            rw [b3] at e
            cases e
          have hLb : L[b]? = some ob := by
            rw [g2, b4, Option.map_some]
            unfold dead
            rw [if_neg hnot]
          refine ⟨b :: o.entries.filterMap (·.2), L.set b { ob with live := false }, ?_, fun k => ?_, fun k hk => ?_⟩
          · simp only
            rw [hLb]
            simp only
            rw [if_pos b5]
          · rw [List.getElem?_set]
            by_cases hk : b = k
            · subst hk
              rw [if_pos rfl, if_pos (List.getElem?_eq_some_iff.1 hLb).1, b4, Option.map_some]
              unfold dead
              rw [if_pos List.mem_cons_self]
            · rw [if_neg hk, g2]
              congr 1
              funext o'
              unfold dead
              by_cases hm : k ∈ o.entries.filterMap (·.2)
              · rw [if_pos hm, if_pos (List.mem_cons_of_mem _ hm)]
              · rw [if_neg hm, if_neg]
                intro hc
                rcases List.mem_cons.1 hc with hc | hc
                · exact hk hc.symm
                · exact hm hc
          · rw [List.mem_cons, hids k hk]
            constructor
            · rintro (rfl | ⟨t', m', i, c1, c2⟩)
              · exact ⟨t, m, b1, Or.inl b3⟩
              · exact ⟨t', m', c1, Or.inr ⟨i, c2⟩⟩
            · rintro ⟨t', m', c1, c2 | ⟨i, c2⟩⟩
              · left
                rw [b1] at c1
                cases c1
                exact H.inj k b hk b2 (c2.trans b3.symm) (by rw [c2]; exact fun h => nomatch h)
              · exact Or.inr ⟨t', m', i, c1, c2⟩
      obtain ⟨ids, L', k1, k2, k3⟩ := key
      have hlen' : L'.length = s.lists.length := by
        have a1 := k2 L'.length
        have a2 := k2 s.lists.length
        rw [List.getElem?_eq_none (Nat.le_refl _)] at a1
        rw [List.getElem?_eq_none (l := s.lists) (Nat.le_refl _)] at a2
        have a1 := List.getElem?_eq_none_iff.1 (Option.map_eq_none_iff.1 a1.symm)
        have a2 : L'[s.lists.length]? = none := a2
        have a2 := List.getElem?_eq_none_iff.1 a2
        omega
      have hfr : ∀ r', Freed (Call.free r :: h : Hist V) r' ↔ r = r' ∨ Freed h r' := fun _ => Iff.rfl
      have hgo : ∀ r' t, GenOK (Call.free r :: h : Hist V) r' t ↔ GenOK h r' t ∧ ¬ (r = r' ∧ ∃ m, gen h r' = some (t, m)) := by
        intro r' t
        unfold GenOK
        rw [hfr]
        show ¬ ((r = r' ∨ Freed h r') ∧ ∃ n, gen h r' = some (t, n)) ↔ _
        constructor
        · intro hc
          exact ⟨fun ⟨a, b⟩ => hc ⟨Or.inr a, b⟩, fun ⟨a, b⟩ => hc ⟨Or.inl a, b⟩⟩
        · rintro ⟨a, b⟩ ⟨c | c, d⟩
          · exact b ⟨c, d⟩
          · exact a ⟨c, d⟩
      have hdead : ∀ k (o' : LObj), (dead ids k o').res = o'.res ∧ (dead ids k o').base = o'.base ∧ (dead ids k o').has = o'.has ∧
          ((dead ids k o').live = true ↔ o'.live = true ∧ k ∉ ids) := by
        intro k o'
        unfold dead
        by_cases hk : k ∈ ids
        · rw [if_pos hk]; exact ⟨rfl, rfl, rfl, ⟨fun h => (nomatch h), fun h => absurd hk h.2⟩⟩
        · rw [if_neg hk]; exact ⟨rfl, rfl, rfl, ⟨fun h => ⟨h, hk⟩, fun h => h.1⟩⟩
      refine ⟨_, tag, k1, ?_, ?_⟩
      · exact {
          nres := by
            show (s.ress.set r _).length = _
            rw [List.length_set]
            exact H.nres
          res := fun r' o' ho => by
            show ResOK _ L'.length tag r' o'
            rw [hlen']
            rcases get_set ho with ⟨rfl, rfl⟩ | ⟨hne, ho⟩
            · exact ⟨⟨fun h => (nomatch h), fun hc => absurd (Or.inl rfl) hc⟩, x.adds, x.ent, x.full, x.base, x.based⟩
            · have x' := H.res r' o' ho
              refine ⟨x'.live.trans (not_congr ?_), x'.adds, x'.ent, x'.full, x'.base, x'.based⟩
              rw [hfr]
              exact ⟨Or.inr, fun hc => hc.resolve_left (fun e => hne e.symm)⟩
          list := fun k o' ho => by
            have ho : L'[k]? = some o' := ho
            show ListOK _ L'.length tag s.act k o'
            rw [hlen']
            rw [k2] at ho
            obtain ⟨o0, a, rfl⟩ := Option.map_eq_some_iff.1 ho
            have hk := (List.getElem?_eq_some_iff.1 a).1
            have y := H.list k o0 a
            obtain ⟨d1, d2, d3, d4⟩ := hdead k o0
            unfold ListOK at y ⊢
            cases e : tag k with
            | own =>
              rw [e] at y
              have hni : k ∉ ids := by
                rw [k3 k hk]
                rintro ⟨_, _, _, e' | ⟨_, e'⟩⟩ <;> rw [e] at e' <;> cases e'
              exact ⟨d1.trans y.1, d2.trans y.2.1, d4.trans ⟨fun hc => y.2.2.1 hc.1, fun hc => ⟨y.2.2.2 hc, hni⟩⟩⟩
            | ent r' t i =>
              rw [e] at y
              refine ⟨d1.trans y.1, d3.trans y.2.1, ?_, Nat.lt_succ_of_lt y.2.2.2.1, by rw [d2]; exact y.2.2.2.2.1, by rw [d2]; exact y.2.2.2.2.2⟩
              rw [d4, hgo, y.2.2.1, k3 k hk, e]
              refine and_congr_right (fun _ => not_congr ?_)
              constructor
              · rintro ⟨t', m, c1, c2 | ⟨i', c2⟩⟩
                · cases c2
                · cases c2; exact ⟨rfl, m, c1⟩
              · rintro ⟨rfl, m, c1⟩
                exact ⟨t, m, c1, Or.inr ⟨i, rfl⟩⟩
            | bas r' t =>
              rw [e] at y
              refine ⟨d1.trans y.1, ?_, Nat.lt_succ_of_lt y.2.2⟩
              rw [d4, hgo, y.2.1, k3 k hk, e]
              refine and_congr_right (fun _ => not_congr ?_)
              constructor
              · rintro ⟨t', m, c1, c2 | ⟨i', c2⟩⟩
                · cases c2; exact ⟨rfl, m, c1⟩
                · cases c2
              · rintro ⟨rfl, m, c1⟩
                exact ⟨t, m, c1, Or.inl rfl⟩
          inj := fun a b ha hb => H.inj a b (hlen' ▸ ha) (hlen' ▸ hb)
          entlt := fun k r' t m i hk => H.entlt k r' t m i (hlen' ▸ hk)
          once := fun ho k r' t hk => H.once ho k r' t (hlen' ▸ hk)
          part := H.part
          noact := H.noact
          act := fun p y e => by
            obtain ⟨l, o', a, b, c⟩ := H.act p y e
            refine ⟨l, dead ids l o', a, ?_, ?_⟩
            · show L'[l]? = _
              rw [k2, b]
              rfl
            · cases y with
              | own al => exact ⟨c.1, (hdead l o').2.2.1.trans c.2⟩
              | res r t i => exact c
          use := H.use
          nseq := H.nseq
          seq := fun k q hq => by
            obtain ⟨o', a, b⟩ := H.seq k q hq
            exact ⟨o', a, b.mono (by show _ ≤ L'.length; omega) (fun _ _ => rfl)⟩
          genlt := fun r' t m e => by
            obtain ⟨a, b, c⟩ := H.genlt r' t m e
            exact ⟨a, Nat.lt_succ_of_lt b, c⟩
          addlt := H.addlt
          freelt := fun r' hr => by
            rcases hr with rfl | hr
            · exact hu.1
            · exact H.freelt r' hr }
      · intro hc _ v hv
        obtain ⟨l, o', a, b, c, d⟩ := hc v hv
        refine ⟨l, dead ids l o', a, ?_, (hdead l o').2.2.1.trans c, ?_⟩
        · show L'[l]? = _
          rw [k2, b]
          rfl
        · rw [(hdead l o').2.1]
          exact d
    · -- an entry without list
      have : ∃ e ∈ o.entries, e.2 = none := by
        have hne : adds h r ≠ [] := fun e => hn ⟨hu, Or.inl e⟩
        have hpos : 0 < o.entries.length := by rw [hlen]; exact List.length_pos_iff.2 hne
        have hlast : o.entries.length - 1 < o.entries.length := by omega
        refine ⟨_, List.getElem_mem hlast, ?_⟩
        cases e : (o.entries[o.entries.length - 1]).2 with
        | none => rfl
        | some l =>
          obtain ⟨t, m, f1, f2, _⟩ := x.ent (o.entries.length - 1) (o.entries[o.entries.length - 1]).1 l
            (by rw [List.getElem?_eq_getElem hlast]; congr 1; exact Prod.ext rfl e)
          obtain ⟨_, _, f3, _⟩ := H.genlt r t m f1
          exact absurd ⟨hu, Or.inr ⟨t, by rw [f1, show m = (adds h r).length by omega]⟩⟩ hn
      obtain ⟨f, hf⟩ := freeEntries_bad o.entries s.lists this
      refine ⟨f, ?_⟩
      show resFree s r = _
      unfold resFree
      rw [h1]
      simp only
      rw [hf]
  · refine ⟨fun ha => absurd ha.1 hu, fun _ => ⟨.ub, ?_⟩⟩
    show resFree s r = _
    unfold resFree
    rw [H.getRes_bad hu]

/-! ### Switches -/

theorem Inv.transition_bad (H : Inv pr h (now pr h) s tag) (hu : UseOK h) (hp : ¬ PlaceOK pr h) (p : Nat) (keep : Bool) :
    ∃ s' l f, prepareMaps s p = .ok (s', l) ∧ doTransition s' s.act l keep = .error f := by
  obtain ⟨q, r, t, i, e1, e2⟩ : ∃ q r t i, now pr h = some (q, .res r t i) ∧ ¬ GenOK h r t := by
    apply Classical.byContradiction
    intro hc
    exact hp (fun q r t i e => Classical.byContradiction (fun hg => hc ⟨q, r, t, i, e, hg⟩))
  obtain ⟨f, of, a, b, _, c⟩ := H.active e1
  have hl : ¬ of.live = true := fun hl => e2 (c.1 hl r t i rfl)
  have key : ∃ s' l, prepareMaps s p = .ok (s', l) ∧ s'.lists[f]? = some of := by
    rcases H.prepare hu p true with ⟨_, e⟩ | ⟨l, o, r, t, i, _, e, _⟩
    · exact ⟨_, _, e, by
        show (s.lists ++ _)[f]? = _
        rw [List.getElem?_append_left (List.getElem?_eq_some_iff.1 b).1]
        exact b⟩
    · exact ⟨_, _, e, b⟩
  obtain ⟨s', l, k1, k2⟩ := key
  refine ⟨s', l, ?_⟩
  unfold doTransition
  cases getList s' l with
  | error e => exact ⟨e, k1, rfl⟩
  | ok o =>
    refine ⟨.ub, k1, ?_⟩
    simp only
    rw [a]
    simp only
    rw [getList_bad k2 hl]

/-- A switch. -/
theorem switch_ok (H : Inv pr h (now pr h) s tag) (hu : UseOK h) (hp : PlaceOK pr h) (p : Nat) (keep : Bool) :
    ∃ s' tag', switchTo s p keep = .ok s' ∧ Inv pr h (some (p, placeFor h p true)) s' tag' ∧
      (keep = true → Cont pr h s → (∀ f r t i t' i', now pr h = some (f, .res r t i) → placeFor h p true = .res r t' i' → t = t') →
        ∀ v, content pr h = some v → Holds s' v) := by
  obtain ⟨s', l, s'', tag', e1, e2, e3, _, e5⟩ := H.transition hu hp p keep
  refine ⟨_, tag', ?_, e3, fun hk hc hx v hv => e5 hk v (hc v hv) hx⟩
  unfold switchTo
  rw [e1]
  simp only
  rw [e2]

theorem switch_bad (H : Inv pr h (now pr h) s tag) (hn : ¬ (UseOK h ∧ PlaceOK pr h)) (p : Nat) (keep : Bool) : ∃ e, switchTo s p keep = .error e := by
  unfold switchTo
  by_cases hu : UseOK h
  · obtain ⟨s', l, f, e1, e2⟩ := H.transition_bad hu (fun hp => hn ⟨hu, hp⟩) p keep
    rw [e1]
    simp only
    rw [e2]
    exact ⟨_, rfl⟩
  · rw [H.prepare_bad hu p]
    exact ⟨_, rfl⟩

theorem same_switch (p : Nat) (k : Bool) : Same pr h (Call.switch p k :: h) :=
  ⟨rfl, fun _ => Iff.rfl, fun _ => rfl, fun _ => rfl, rfl, rfl, Nat.le_succ _, fun h => h⟩

theorem same_trans (F : Option Nat) (p : Nat) (k : Bool) : Same pr h (Call.trans F p k :: h) :=
  ⟨rfl, fun _ => Iff.rfl, fun _ => rfl, fun _ => rfl, rfl, rfl, Nat.le_succ _, fun h => h⟩

theorem same_exec (k : Nat) : Same pr h (Call.exec k :: h) :=
  ⟨rfl, fun _ => Iff.rfl, fun _ => rfl, fun _ => rfl, rfl, rfl, Nat.le_succ _, fun h => h⟩

theorem same_initial (p : Nat) : Same pr h (Call.initial p :: h) :=
  ⟨rfl, fun _ => Iff.rfl, fun _ => rfl, fun _ => rfl, rfl, rfl, Nat.le_succ _, fun h => h⟩

theorem same_write (v : V) : Same pr h (Call.write v :: h) :=
  ⟨rfl, fun _ => Iff.rfl, fun _ => rfl, fun _ => rfl, rfl, rfl, Nat.le_succ _, fun h => h⟩

theorem step_switch (H : Inv pr h (now pr h) s tag) (p : Nat) (keep : Bool) : StepOK pr h s (.switch p keep) := by
  refine ⟨fun ha => ?_, fun hn => switch_bad H hn p keep⟩
  obtain ⟨s', tag', e1, e2, e3⟩ := switch_ok H ha.1 ha.2 p keep
  refine ⟨s', tag', e1, e2.same (same_switch p keep), fun hc hx v hv => ?_⟩
  cases keep with
  | false => cases hv
  | true => exact e3 rfl hc (hx p rfl) v hv

theorem step_trans (H : Inv pr h (now pr h) s tag) (F : Option Nat) (p : Nat) (keep : Bool) : StepOK pr h s (.trans F p keep) := by
  have e0 : step pr s (.trans F p keep) = if s.part ≠ F then .error .panic else switchTo s p keep := rfl
  unfold StepOK
  rw [e0, H.part]
  refine ⟨fun ha => ?_, fun hn => ?_⟩
  · obtain ⟨s', tag', e1, e2, e3⟩ := switch_ok H ha.2.1 ha.2.2 p keep
    rw [if_neg (fun hc => hc ha.1)]
    refine ⟨s', tag', e1, e2.same (same_trans F p keep), fun hc hx v hv => ?_⟩
    cases keep with
    | false => cases hv
    | true => exact e3 rfl hc (hx p rfl) v hv
  · by_cases hF : (now pr h).map (·.1) = F
    · rw [if_neg (fun hc => hc hF)]
      exact switch_bad H (fun hc => hn ⟨hF, hc⟩) p keep
    · rw [if_pos hF]
      exact ⟨_, rfl⟩

/-- Comparison of a list kept in a sequence with the active list. -/
theorem Inv.same_src (H : Inv pr h (now pr h) s tag) {l : Option Nat} {x : Option Place} (hx : PrepOK s.lists.length tag l x) :
    (l ≠ none ∧ l ≠ s.act) ↔ ¬ ∀ y, x = some y → (now pr h).map (·.2) = some y := by
  rcases hx with ⟨rfl, rfl⟩ | ⟨k, r, t, i, rfl, rfl, a, b⟩
  · exact ⟨fun hc => absurd rfl hc.1, fun hc => absurd (fun y e => nomatch e) hc⟩
  · have key : s.act = some k ↔ (now pr h).map (·.2) = some (.res r t i) := by
      cases e : now pr h with
      | none =>
        rw [H.noact e]
        exact ⟨fun hc => (nomatch hc), fun hc => (nomatch hc)⟩
      | some px =>
        obtain ⟨p, x⟩ := px
        obtain ⟨l, o, c1, c2, c3⟩ := H.act p x e
        rw [c1, Option.map_some]
        constructor
        · intro hk
          cases hk
          cases x with
          | own al => rw [b] at c3; cases c3.1
          | res r' t' i' =>
            have c3 : tag k = _ := c3
            rw [b] at c3
            cases c3
            rfl
        · intro hk
          have hk : x = .res r t i := Option.some.inj hk
          subst hk
          have c3 : tag l = .ent r t i := c3
          rw [H.inj l k (List.getElem?_eq_some_iff.1 c2).1 a (c3.trans b.symm) (by rw [c3]; exact fun h => nomatch h)]
    constructor
    · intro hc hy
      exact hc.2 (key.2 (hy _ rfl)).symm
    · intro hc
      refine ⟨fun h => (nomatch h), fun hk => hc (fun y e => ?_)⟩
      cases e
      exact key.1 hk.symm

theorem step_exec (H : Inv pr h (now pr h) s tag) (k : Nat) : StepOK pr h s (.exec k) := by
  have e0 : step pr s (.exec k) = match s.seqs[k]? with
    | none => .error .ub
    | some q => execSeq s q := rfl
  cases hq : (seqs pr h)[k]? with
  | none =>
    refine ⟨fun ⟨q, e, _⟩ => by rw [hq] at e; (cases e), fun _ => ⟨.ub, ?_⟩⟩
    have := List.getElem?_eq_none_iff.1 hq
    rw [e0, List.getElem?_eq_none (by rw [H.nseq]; exact this)]
  | some q =>
    obtain ⟨o, o1, o2⟩ := H.seq k q hq
    rw [o1] at e0
    have hnow : now pr (Call.exec k :: h) = some (q.p, placeFor h q.p true) := by
      show (match (seqs pr h)[k]? with
        | some q => some (q.p, placeFor h q.p true)
        | none => now pr h) = _
      rw [hq]
    have hkeep : keeps pr h (.exec k) = if q.keep then some q.p else none := by
      show ((seqs pr h)[k]?.bind _) = _
      rw [hq]
      rfl
    have hcont : content pr (Call.exec k :: h) = if (keeps pr h (.exec k)).isSome then content pr h else none := rfl
    unfold StepOK
    rw [e0, hnow]
    simp only
    unfold execSeq
    rw [H.part, o2.F, o2.p, o2.keep]
    have hA : Allowed pr h (.exec k) ↔ (now pr h).map (·.1) = q.F ∧ UseOK h ∧ PlaceOK pr h ∧
        (∀ x, q.src = some x → (now pr h).map (·.2) = some x) ∧ ∀ x, q.dst = some x → placeFor h q.p true = x := by
      constructor
      · rintro ⟨q', e, e'⟩
        rw [hq] at e
        cases e
        exact e'
      · intro e'
        exact ⟨q, hq, e'⟩
    rw [hA]
    by_cases hF : (now pr h).map (·.1) = q.F
    · rw [if_neg (fun hc => hc hF)]
      by_cases hu : UseOK h
      · by_cases hp : PlaceOK pr h
        · obtain ⟨s', l, s'', tag', e1, e2, e3, e4, e5⟩ := H.transition hu hp q.p q.keep
          rw [e1]
          simp only
          have hs := H.same_src o2.src
          have hd : (o.prepTo ≠ none ∧ o.prepTo ≠ some l) ↔ ¬ ∀ y, q.dst = some y → placeFor h q.p true = y := by
            rcases o2.dst with ⟨a, b⟩ | ⟨k, r, t, i, a, b, c, d⟩
            · rw [a, b]
              exact ⟨fun hc => absurd rfl hc.1, fun hc => absurd (fun y e => nomatch e) hc⟩
            · rw [a, b]
              have := e4 k r t i c d
              constructor
              · intro hc hy
                exact hc.2 (by rw [this.2 (hy _ rfl)])
              · intro hc
                refine ⟨fun h => (nomatch h), fun hk => hc (fun y e => ?_)⟩
                cases e
                exact this.1 (Option.some.inj hk)
          by_cases h1 : ∀ x, q.src = some x → (now pr h).map (·.2) = some x
          · rw [if_neg (fun hc => hs.1 hc h1)]
            by_cases h2 : ∀ x, q.dst = some x → placeFor h q.p true = x
            · rw [if_neg (fun hc => hd.1 hc h2), e2]
              refine ⟨fun _ => ⟨_, tag', rfl, e3.same (same_exec k), fun hc hx v hv => ?_⟩, fun hn => absurd ⟨hF, hu, hp, h1, h2⟩ hn⟩
              rw [hcont, hkeep] at hv
              cases hk : q.keep with
              | false => rw [hk] at hv; cases hv
              | true =>
                rw [hk] at hv hkeep
                exact e5 hk v (hc v hv) (hx q.p hkeep)
            · rw [if_pos (hd.2 h2)]
              exact ⟨fun ha => absurd ha.2.2.2.2 h2, fun _ => ⟨_, rfl⟩⟩
          · rw [if_pos (hs.2 h1)]
            exact ⟨fun ha => absurd ha.2.2.2.1 h1, fun _ => ⟨_, rfl⟩⟩
        · refine ⟨fun ha => absurd ha.2.2.1 hp, fun _ => ?_⟩
          obtain ⟨s', l, f, e1, e2⟩ := H.transition_bad hu hp q.p q.keep
          rw [e1]
          simp only
          split
          · exact ⟨_, rfl⟩
          · split
            · exact ⟨_, rfl⟩
            · rw [e2]
              exact ⟨_, rfl⟩
      · refine ⟨fun ha => absurd ha.2.1 hu, fun _ => ⟨.ub, ?_⟩⟩
        rw [H.prepare_bad hu]
    · rw [if_pos hF]
      exact ⟨fun ha => absurd ha.1 hF, fun _ => ⟨_, rfl⟩⟩

/-! ### Other calls -/

theorem step_initial (H : Inv pr h (now pr h) s tag) (p : Nat) : StepOK pr h s (.initial p) := by
  have e0 : step pr s (.initial p) = if s.part ≠ none ∨ s.act ≠ none then .error .assert
    else match prepareMaps s p with
      | .error e => .error e
      | .ok (s', l) => .ok { s' with part := some p, act := some l } := rfl
  unfold StepOK
  rw [e0]
  cases hN : now pr h with
  | some px =>
    have : s.part ≠ none ∨ s.act ≠ none := by
      left
      rw [H.part, hN]
      exact fun h => nomatch h
    rw [if_pos this]
    exact ⟨fun ha => by rw [ha.1] at hN; (cases hN), fun _ => ⟨_, rfl⟩⟩
  | none =>
    have hact := H.noact hN
    have : ¬ (s.part ≠ none ∨ s.act ≠ none) := by
      rw [H.part, hN, hact]
      simp
    rw [if_neg this]
    have hk : ∀ (k : Nat) (x : Option LObj), x.map (kill s.act k) = x := by
      intro k x
      have : kill s.act k = id := by
        funext o
        unfold kill
        rw [hact, if_neg (fun hc => nomatch hc.1)]
        rfl
      rw [this, Option.map_id, id]
    by_cases hu : UseOK h
    · refine ⟨fun _ => ?_, fun hn => absurd ⟨hN, hu⟩ hn⟩
      have hnow : now pr (Call.initial p :: h) = some (p, placeFor h p false) := rfl
      rw [hnow]
      rcases H.prepare hu p false with ⟨e1, e2⟩ | ⟨l, o, r, t, i, e1, e2, e3, e4, e5⟩
      · rw [e2, e1]
        refine ⟨_, _, rfl, (H.move_own (L := s.lists ++ [LObj.mk true none false s.lists.length]) (a := false) (by simp) (by simp)
          (fun k hk' => ?_) p s.mem).same (same_initial p), fun _ _ v hv => nomatch hv⟩
        rw [hk, List.getElem?_append_left hk']
      · rw [e2, e1]
        exact ⟨_, _, rfl, (H.move_res e3 e5 (L := s.lists) (fun k => (hk k _).symm) p s.mem).same (same_initial p), fun _ _ v hv => nomatch hv⟩
    · rw [H.prepare_bad hu]
      exact ⟨fun ha => absurd ha.2 hu, fun _ => ⟨_, rfl⟩⟩

theorem step_write (H : Inv pr h (now pr h) s tag) (v : V) : StepOK pr h s (.write v) := by
  have e0 : step pr s (.write v) = match s.act with
    | none => .error .assert
    | some l => match getList s l with
      | .error e => .error e
      | .ok o => if o.has then .ok { s with mem := upd s.mem o.base (some v) } else .error .assert := rfl
  unfold StepOK
  rw [e0]
  cases hN : now pr h with
  | none =>
    rw [H.noact hN]
    exact ⟨fun ⟨_, _, _, e, _⟩ => by rw [hN] at e; (cases e), fun _ => ⟨_, rfl⟩⟩
  | some px =>
    obtain ⟨p, x⟩ := px
    obtain ⟨l, o, a, b, c, d⟩ := H.active hN
    have hP : PlaceOK pr h ↔ o.live = true := by
      rw [d]
      constructor
      · intro hp r t i e
        exact hp p r t i (by rw [hN, e])
      · intro hp q r t i e
        rw [hN] at e
        exact hp r t i (by cases e; rfl)
    have hH : x ≠ .own false ↔ o.has = true := by
      cases x with
      | own al =>
        rw [c.2]
        cases al
        · exact ⟨fun h => absurd rfl h, fun h => nomatch h⟩
        · exact ⟨fun _ => rfl, fun _ h => nomatch h⟩
      | res r t i =>
        have z := H.list l o b
        unfold ListOK at z
        have c : tag l = _ := c
        rw [c] at z
        exact ⟨fun _ => z.2.1, fun _ h => nomatch h⟩
    have hA : Allowed pr h (.write v) ↔ o.live = true ∧ o.has = true := by
      rw [← hP, ← hH]
      constructor
      · rintro ⟨e1, q, y, e2, e3⟩
        rw [hN] at e2
        cases e2
        exact ⟨e1, e3⟩
      · rintro ⟨e1, e2⟩
        exact ⟨e1, p, x, hN, e2⟩
    rw [hA, show (match s.act with
      | none => Except.error .assert
      | some l => match getList s l with
        | .error e => .error e
        | .ok o => if o.has then .ok { s with mem := upd s.mem o.base (some v) } else .error .assert) =
      (match getList s l with
        | .error e => .error e
        | .ok o => if o.has then .ok { s with mem := upd s.mem o.base (some v) } else .error .assert : Except Fault (St V)) by rw [a]]
    by_cases h1 : o.live = true
    · rw [getList_ok b h1]
      simp only
      by_cases h2 : o.has = true
      · rw [if_pos h2]
        refine ⟨fun _ => ⟨_, tag, rfl, ?_, fun _ _ w hw => ?_⟩, fun hn => absurd ⟨h1, h2⟩ hn⟩
        · have H' : Inv pr h (now pr (Call.write v :: h)) { s with mem := upd s.mem o.base (some v) } tag := {
            nres := H.nres, res := H.res, list := H.list, inj := H.inj, entlt := H.entlt, once := H.once, part := H.part, noact := H.noact, act := H.act,
            use := H.use, nseq := H.nseq, seq := H.seq, genlt := H.genlt, addlt := H.addlt, freelt := H.freelt }
          exact H'.same (same_write v)
        · cases hw
          refine ⟨l, o, a, b, h2, ?_⟩
          show upd s.mem o.base (some v) o.base = _
          unfold upd
          rw [if_pos rfl]
      · rw [if_neg h2]
        exact ⟨fun ha => absurd ha.2 h2, fun _ => ⟨_, rfl⟩⟩
    · rw [getList_bad b h1]
      exact ⟨fun ha => absurd ha.1 h1, fun _ => ⟨_, rfl⟩⟩

/-- List to prepare for. -/
theorem Inv.opt (H : Inv pr h (now pr h) s tag) (r p : Option Nat) :
    ((∀ r', r = some r' → InUse h r') → ∃ l, optList s r p = .ok l ∧
      PrepOK s.lists.length tag l (r.bind fun r => p.bind fun f => covered h r f)) ∧
    ((¬ ∀ r', r = some r' → InUse h r') → optList s r p = .error .ub) := by
  cases r with
  | none => exact ⟨fun _ => ⟨none, by cases p <;> rfl, Or.inl ⟨rfl, rfl⟩⟩, fun hn => absurd (fun r e => nomatch e) hn⟩
  | some r =>
    refine ⟨fun hr => ?_, fun hn => ?_⟩
    · have hr := hr r rfl
      cases p with
      | none =>
        obtain ⟨o, h1, _⟩ := H.getRes hr
        refine ⟨none, ?_, Or.inl ⟨rfl, rfl⟩⟩
        show (Rl.getRes s r).map _ = _
        rw [h1]
        rfl
      | some p =>
        rcases H.entry hr p with ⟨a, b⟩ | ⟨l, o, t, i, a, b, c, d, e, _⟩
        · exact ⟨none, b, Or.inl ⟨rfl, a⟩⟩
        · exact ⟨some l, b, Or.inr ⟨l, r, t, i, rfl, a, (List.getElem?_eq_some_iff.1 c).1, e⟩⟩
    · have hb : Rl.getRes s r = .error .ub := H.getRes_bad (fun hi => hn (fun r' e => by cases e; exact hi))
      cases p with
      | none =>
        show (Rl.getRes s r).map _ = _
        rw [hb]
        rfl
      | some p =>
        show getMList s r p = _
        unfold getMList
        rw [hb]

theorem step_calc (H : Inv pr h (now pr h) s tag) (F : Option Nat) (p : Nat) (fr tr : Option Nat) (keep : Bool) :
    StepOK pr h s (.calc F p fr tr keep) := by
  have e0 : step pr s (.calc F p fr tr keep) = match optList s fr F, optList s tr (some p) with
    | .error e, _ => .error e
    | .ok _, .error e => .error e
    | .ok a, .ok b => .ok { s with seqs := s.seqs ++ [⟨F, p, if pr then a else none, if pr then b else none, keep⟩] } := rfl
  have h1 := H.opt fr F
  have h2 := H.opt tr (some p)
  refine ⟨fun ha => ?_, fun hn => ?_⟩
  · obtain ⟨a, a1, a2⟩ := h1.1 ha.1
    obtain ⟨b, b1, b2⟩ := h2.1 ha.2
    rw [a1, b1] at e0
    refine ⟨_, tag, e0, ?_, fun hc _ => hc⟩
    have hif : ∀ {l : Option Nat} {x : Option Place}, PrepOK s.lists.length tag l x →
        PrepOK s.lists.length tag (if pr then l else none) (if pr then x else none) := by
      intro l x hx
      cases pr
      · exact Or.inl ⟨rfl, rfl⟩
      · exact hx
    exact {
      nres := H.nres
      res := fun r o ho => by
        have x := H.res r o ho
        exact ⟨x.live, x.adds, x.ent, x.full, x.base, x.based⟩
      list := fun l o ho => (H.list l o ho).same (h := h) (h' := Call.calc F p fr tr keep :: h) (fun _ _ _ => Iff.rfl) (Nat.le_succ _)
      inj := H.inj
      entlt := H.entlt
      once := H.once
      part := H.part
      noact := H.noact
      act := H.act
      use := H.use
      nseq := by
        show (s.seqs ++ [_]).length = (seqs pr h ++ [_]).length
        rw [List.length_append, List.length_append, H.nseq]
        rfl
      seq := fun k q hq => by
        have hq : (seqs pr h ++ [Prepared.mk F p (if pr then fr.bind fun r => F.bind fun f => covered h r f else none)
          (if pr then tr.bind fun r => covered h r p else none) keep])[k]? = some q := hq
        show ∃ o : SObj, (s.seqs ++ [_])[k]? = _ ∧ _
        rcases Nat.lt_or_ge k (seqs pr h).length with hk | hk
        · rw [List.getElem?_append_left hk] at hq
          rw [List.getElem?_append_left (by rw [H.nseq]; exact hk)]
          exact H.seq k q hq
        · rw [List.getElem?_append_right hk] at hq
          rw [List.getElem?_append_right (by rw [H.nseq]; exact hk), H.nseq]
          have hk0 : k - (seqs pr h).length = 0 := by
            have := (List.getElem?_eq_some_iff.1 hq).1
            simp at this
            omega
          rw [hk0] at hq ⊢
          cases hq
          exact ⟨_, rfl, rfl, rfl, rfl, hif a2, hif b2⟩
      genlt := fun r t m e => by
        obtain ⟨a, b, c⟩ := H.genlt r t m e
        exact ⟨a, Nat.lt_succ_of_lt b, c⟩
      addlt := H.addlt
      freelt := H.freelt }
  · rw [e0]
    by_cases hf : ∀ r, fr = some r → InUse h r
    · obtain ⟨a, a1, _⟩ := h1.1 hf
      rw [a1, h2.2 (fun ht => hn ⟨hf, ht⟩)]
      exact ⟨_, rfl⟩
    · rw [h1.2 hf]
      exact ⟨_, rfl⟩

/-- Every call. -/
theorem step_spec (H : Inv pr h (now pr h) s tag) (c : Call V) : StepOK pr h s c := by
  match c with
  | .new => exact step_new H
  | .add r p => exact step_add H r p
  | .alloc r => exact step_alloc H r
  | .free r => exact step_free H r
  | .use r => exact step_use H r
  | .initial p => exact step_initial H p
  | .switch p k => exact step_switch H p k
  | .trans F p k => exact step_trans H F p k
  | .calc F p fr tr k => exact step_calc H F p fr tr k
  | .exec k => exact step_exec H k
  | .write v => exact step_write H v

end

/-- Histories of calls. -/
theorem run_spec {V : Type} (pr : Bool) (h : Hist V) :
    (Legal pr h → ∃ s tag, run pr h = .ok s ∧ Inv pr h (now pr h) s tag ∧ (NoCross pr h → Cont pr h s)) ∧
    (¬ Legal pr h → ∃ e, run pr h = .error e) := by
  induction h with
  | nil =>
    refine ⟨fun _ => ⟨{}, fun _ => .own, rfl, ?_, fun _ v hv => nomatch hv⟩, fun hn => absurd trivial hn⟩
    exact {
      nres := rfl
      res := fun r o ho => by simp at ho
      list := fun r o ho => by simp at ho
      inj := fun l l' hl => absurd hl (Nat.not_lt_zero l)
      entlt := fun l r t m i hl => absurd hl (Nat.not_lt_zero l)
      once := fun _ l r t hl => absurd hl (Nat.not_lt_zero l)
      part := rfl
      noact := fun _ => rfl
      act := fun p x e => nomatch e
      use := rfl
      nseq := rfl
      seq := fun k q hq => by simp [seqs] at hq
      genlt := fun r t m e => nomatch e
      addlt := fun r _ => rfl
      freelt := fun r hf => hf.elim }
  | cons c h ih =>
    have e0 : run pr (c :: h) = match run pr h with
      | .error e => .error e
      | .ok s => step pr s c := rfl
    by_cases hl : Legal pr h
    · obtain ⟨s, tag, a, b, d⟩ := ih.1 hl
      rw [a] at e0
      rw [e0]
      obtain ⟨k1, k2⟩ := step_spec b c
      refine ⟨fun ha => ?_, fun hn => k2 (fun ha => hn ⟨hl, ha⟩)⟩
      obtain ⟨s', tag', f1, f2, f3⟩ := k1 ha.2
      exact ⟨s', tag', f1, f2, fun hx => f3 (d hx.1) hx.2⟩
    · obtain ⟨e, he⟩ := ih.2 hl
      rw [he] at e0
      exact ⟨fun ha => absurd ha.1 hl, fun _ => ⟨e, e0⟩⟩

end Laik.Rl
