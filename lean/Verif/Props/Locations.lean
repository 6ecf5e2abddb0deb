import Verif.Model.LocationsLemmas
/-!
# C67: location strings of all processes are known everywhere after synchronization
-/

namespace Laik

open Lc

namespace Lc

/-- What process `w` puts into the store. -/
def ownChange (w : Nat × Bytes) : Bytes × Bytes := (locKey w.1, w.2 ++ [0])

/-- Store of process `w` before synchronization. -/
def ownStore (w : Nat × Bytes) : KVS := (kvsSets kvsNew (locKey w.1) (w.2 ++ [])).getD kvsNew

theorem ownStore_spec (w : Nat × Bytes) :
    kvsSet kvsNew (locKey w.1) (w.2 ++ [0]) = some (ownStore w) ∧
      Dirty (fun _ => none) [ownChange w] [ownChange w] (ownStore w) := by
  obtain ⟨s', h1, h2, h3, h4, h5⟩ := kvsSet_change kvsNew_inv rfl (k := locKey w.1) (v := w.2 ++ [0])
    (by intro old ho; cases ho)
  have he : ownStore w = s' := by
    unfold ownStore kvsSets
    rw [List.append_nil, h1]
    rfl
  rw [he]
  refine ⟨h1, h2, h3, by simp, by simp, ?_, ?_, by simp⟩
  · intro k
    rw [h4]
    by_cases hk : k = locKey w.1
    · simp [ownChange, hk]
    · have : ¬ locKey w.1 = k := fun h => hk h.symm
      simp only [hk, if_false, ownChange, List.find?_cons, this, decide_false, List.find?_nil]
      rfl
  · intro k
    rw [h5]
    by_cases hk : k = locKey w.1
    · simp [ownChange, hk]
    · have : ¬ locKey w.1 = k := fun h => hk h.symm
      simp only [hk, if_false, ownChange, List.any_cons, this, decide_false, List.any_nil, Bool.or_false]
      rfl

theorem own_kvs (w : Nat × Bytes) (n : Nat) (hw : w.1 < n) :
    locOwn w.1 w.2 (locInit (locNew n)) = some (ownStore w, ⟨n, (List.replicate n none).set w.1 (some w.2)⟩) := by
  unfold locOwn locInit locNew
  simp only [List.length_replicate]
  rw [if_pos hw]
  unfold kvsSetCb
  rw [(ownStore_spec w).1]
  rfl

/-- The world `ws` of a first synchronization: location IDs and strings. -/
structure World (n : Nat) (ws : List (Nat × Bytes)) : Prop where
  nodup : (ws.map (·.1)).Nodup
  lid : ∀ w ∈ ws, w.1 < n ∧ w.1 < 10 ^ 9
  str : ∀ w ∈ ws, 0 ∉ w.2
  some : ∃ w ∈ ws, w.2 ≠ []

theorem World.eq {n ws} (h : World n ws) {a b : Nat × Bytes} (ha : a ∈ ws) (hb : b ∈ ws) (he : a.1 = b.1) : a = b :=
  List.inj_on_of_nodup_map h.nodup ha hb he

theorem World.ok {n ws} (h : World n ws) : RoundOK (fun _ => none) (ws.map fun w => [ownChange w]) := by
  refine ⟨?_, ?_, (fun _ _ _ _ _ _ ho => nomatch ho), ?_⟩
  · intro l hl x hx
    obtain ⟨w, hw, rfl⟩ := List.mem_map.1 hl
    rw [List.mem_singleton] at hx
    subst hx
    exact ⟨locKey_no0 _, by simp [ownChange]⟩
  · intro l hl l' hl' k v v' hx hx'
    obtain ⟨w, hw, rfl⟩ := List.mem_map.1 hl
    obtain ⟨w', hw', rfl⟩ := List.mem_map.1 hl'
    rw [List.mem_singleton] at hx hx'
    have e1 := congrArg Prod.fst hx
    have e2 := congrArg Prod.fst hx'
    have e := locKey_inj (h.lid w hw).2 (h.lid w' hw').2 (e1.symm.trans e2)
    have := h.eq hw hw' e
    subst this
    exact congrArg Prod.snd (hx.trans hx'.symm)
  · obtain ⟨w, hw, hne⟩ := h.some
    refine ⟨_, List.mem_map_of_mem hw, locKey w.1, w.2 ++ [0], by simp [ownChange], by simp, ?_⟩
    have h1 : 0 < (locKey w.1).length := by
      have := List.length_pos_iff.2 (Codec.digits_ne_nil w.1)
      unfold locKey
      rw [List.length_take, List.length_map]
      omega
    have h2 := List.length_pos_iff.2 hne
    rw [List.length_append, List.length_singleton]
    omega

/-- What is known after a first synchronization. -/
structure Known (n : Nat) (ws : List (Nat × Bytes)) (i : LocInst) : Prop where
  locs : i.mem.locations = n
  len : i.mem.arr.length = n
  all : ∀ w ∈ ws, i.mem.arr[w.1]? = some (some w.2)
  others : ∀ j < n, (∀ w ∈ ws, w.1 ≠ j) → i.mem.arr[j]? = some none
  store : ∃ s, i.store = some s ∧ Clean (roundSpec (fun _ => none) (ws.map fun w => [ownChange w])) s ∧
    ∀ w ∈ ws, roundSpec (fun _ => none) (ws.map fun w => [ownChange w]) (locKey w.1) = some (w.2 ++ [0])

theorem takeWhile_str {l : Bytes} (h : 0 ∉ l) : (l ++ [0]).takeWhile (· ≠ 0) = l := by
  induction l with
  | nil => rfl
  | cons c l ih =>
    have h1 : c ≠ 0 := fun e => h (by simp [e])
    rw [List.cons_append, List.takeWhile_cons, if_pos (by simpa using h1), ih (fun e => h (List.mem_cons_of_mem _ e))]

/-- Callbacks in process `w`. -/
theorem cbs_known {n ws} (h : World n ws) {L : List (Bytes × Bytes)} (hn : (L.map (·.1)).Nodup)
    (hL : ∀ x, x ∈ L ↔ ∃ w ∈ ws, x = ownChange w) {w : Nat × Bytes} (hw : w ∈ ws) :
    ∃ a, cbs updLoc (entVal (ownStore w).ent) L ⟨n, (List.replicate n none).set w.1 (some w.2)⟩ = some a ∧
      a.locations = n ∧ a.arr.length = n ∧ (∀ v ∈ ws, a.arr[v.1]? = some (some v.2)) ∧
      (∀ j < n, (∀ v ∈ ws, v.1 ≠ j) → a.arr[j]? = some none) := by
  have hval : ∀ v ∈ ws, (entVal (ownStore w).ent (ownChange v).1 ≠ some (ownChange v).2) ↔ v ≠ w := by
    intro v hv
    rw [(ownStore_spec w).2.val]
    by_cases e : v = w
    · subst e
      simp
    · have hk : ¬ (ownChange w).1 = (ownChange v).1 := fun he =>
        e (h.eq hv hw (locKey_inj (h.lid w hw).2 (h.lid v hv).2 he).symm)
      simp [e, hk]
  have hM : ∀ x, x ∈ L.filter (fun x => entVal (ownStore w).ent x.1 ≠ some x.2) ↔ ∃ v ∈ ws, v ≠ w ∧ x = ownChange v := by
    intro x
    rw [List.mem_filter, hL]
    constructor
    · rintro ⟨⟨v, hv, rfl⟩, hx⟩
      exact ⟨v, hv, (hval v hv).1 (by simpa using hx), rfl⟩
    · rintro ⟨v, hv, hne, rfl⟩
      exact ⟨⟨v, hv, rfl⟩, by simpa using (hval v hv).2 hne⟩
  have hat : ∀ v ∈ ws, atoi (ownChange v).1 = v.1 := fun v hv => atoi_locKey (h.lid v hv).2
  obtain ⟨a, h1, h2, h3, h4, h5⟩ := fold_upd (L.filter (fun x => entVal (ownStore w).ent x.1 ≠ some x.2))
    ⟨n, (List.replicate n none).set w.1 (some w.2)⟩ (by
      intro x hx
      obtain ⟨v, hv, _, rfl⟩ := (hM x).1 hx
      rw [hat v hv]
      simpa using (h.lid v hv).1) (by
      have hs : ((L.filter (fun x => entVal (ownStore w).ent x.1 ≠ some x.2)).map (·.1)).Nodup :=
        hn.sublist ((List.filter_sublist).map _)
      unfold List.Nodup at hs ⊢
      rw [List.pairwise_map] at hs ⊢
      refine hs.imp_of_mem ?_
      intro x y hx hy hxy he
      obtain ⟨v, hv, _, rfl⟩ := (hM x).1 hx
      obtain ⟨v', hv', _, rfl⟩ := (hM y).1 hy
      rw [hat v hv, hat v' hv'] at he
      exact hxy (by rw [h.eq hv hv' he]))
  simp only [List.length_set, List.length_replicate] at h3
  have hown : a.arr[w.1]? = some (some w.2) := by
    rw [h5 w.1 (fun x hx he => by
      obtain ⟨v, hv, hne, rfl⟩ := (hM x).1 hx
      rw [hat v hv] at he
      exact hne (h.eq hv hw he))]
    have := (h.lid w hw).1
    simp [List.getElem?_set, this]
  refine ⟨a, h1, h2, h3, ?_, ?_⟩
  · intro v hv
    by_cases e : v = w
    · rw [e]; exact hown
    · have := h4 (ownChange v) ((hM _).2 ⟨v, hv, e, rfl⟩)
      rw [hat v hv] at this
      rw [this]
      show some (some ((v.2 ++ [0]).takeWhile (· ≠ 0))) = _
      rw [takeWhile_str (h.str v hv)]
  · intro j hj hno
    rw [h5 j (fun x hx he => by
      obtain ⟨v, hv, _, rfl⟩ := (hM x).1 hx
      rw [hat v hv] at he
      exact hno v hv he)]
    simp only
    rw [List.getElem?_set_ne (hno w hw), List.getElem?_replicate, if_pos hj]

theorem bind_some_of {α β} {x : Option α} {f : α → Option β} {y : β} (h : x.bind f = some y) :
    ∃ c, x = some c ∧ f c = some y := by
  cases x with
  | none => cases h
  | some c => exact ⟨c, rfl, h⟩

theorem allSome_mem {α β} {f : α → Option β} : ∀ {l : List α} {r : List β}, allSome (l.map f) = some r →
    ∀ x ∈ l, ∃ y ∈ r, f x = some y
  | [], _, _, x, hx => by cases hx
  | a :: l, r, h, x, hx => by
    rw [List.map_cons] at h
    cases ha : f a with
    | none => rw [ha] at h; cases h
    | some y =>
      rw [ha, allSome] at h
      cases hl : allSome (l.map f) with
      | none => rw [hl] at h; cases h
      | some r' =>
        rw [hl] at h
        cases h
        rcases List.mem_cons.1 hx with rfl | hx
        · exact ⟨y, by simp, ha⟩
        · obtain ⟨z, hz, e⟩ := allSome_mem hl x hx
          exact ⟨z, List.mem_cons_of_mem _ hz, e⟩

/-- Applying all changes in process `w`. -/
theorem setAllCb_known {n ws} (h : World n ws) {L : List (Bytes × Bytes)} (hn : (L.map (·.1)).Nodup)
    (hL : ∀ x, x ∈ L ↔ ∃ w ∈ ws, x = ownChange w) {w : Nat × Bytes} (hw : w ∈ ws) (c : Changes) {s : KVS}
    (hs : setAll L { ownStore w with inSync := true, changes := c } = some s) :
    ∃ a, setAllCb updLoc L ({ ownStore w with inSync := true, changes := c },
        ⟨n, (List.replicate n none).set w.1 (some w.2)⟩) = some (s, a) ∧
      a.locations = n ∧ a.arr.length = n ∧ (∀ v ∈ ws, a.arr[v.1]? = some (some v.2)) ∧
      (∀ j < n, (∀ v ∈ ws, v.1 ≠ j) → a.arr[j]? = some none) := by
  obtain ⟨a, h1, h2⟩ := cbs_known h hn hL hw
  refine ⟨a, ?_, h2⟩
  have hd := (ownStore_spec w).2
  rw [setAllCb_sync updLoc _ (s := { ownStore w with inSync := true, changes := c }) hd.inv.ent rfl hn, hs]
  · simp only [Option.bind_some]
    rw [h1]
    rfl
  · intro x hx
    obtain ⟨v, hv, rfl⟩ := (hL x).1 hx
    simp only
    rw [hd.val, hd.flag]
    by_cases e : v = w
    · subst e
      simp
    · have hk : ¬ (ownChange w).1 = (ownChange v).1 := fun he =>
        e (h.eq hv hw (locKey_inj (h.lid w hw).2 (h.lid v hv).2 he).symm)
      simp [hk]

theorem locSync_known {q} (hq : IsQsort q) {n ws} (h : World n ws) :
    ∃ r, locSync q (ws.map fun w => (locNew n, w)) = some r ∧ r.length = ws.length ∧ ∀ i ∈ r, Known n ws i := by
  match ws, h with
  | [], h => obtain ⟨w, hw, _⟩ := h.some; cases hw
  | w0 :: ws, h =>
    let T : Nat × Bytes → PState := fun w => ([ownChange w], [ownChange w], ownStore w)
    have hT : ((w0 :: ws).map T).map (·.1) = (w0 :: ws).map fun w => [ownChange w] := by rw [List.map_map]; rfl
    have hd : ∀ t ∈ T w0 :: ws.map T, Dirty (fun _ => none) t.1 t.2.1 t.2.2 := by
      intro t ht
      rw [← List.map_cons] at ht
      obtain ⟨w, _, rfl⟩ := List.mem_map.1 ht
      exact (ownStore_spec w).2
    have hok : RoundOK (fun _ => none) ((T w0 :: ws.map T).map (·.1)) := by
      rw [← List.map_cons, hT]
      exact h.ok
    obtain ⟨d, L, s0, r, e1, e2, e3, e4, e5, e6, e7, e8, e9, e10⟩ := kvsSync_parts hq hd hok
    have hL : ∀ x, x ∈ L ↔ ∃ w ∈ w0 :: ws, x = ownChange w := by
      intro x
      rw [e6, ← List.map_cons]
      constructor
      · rintro ⟨t, ht, hx⟩
        obtain ⟨w, hw, rfl⟩ := List.mem_map.1 ht
        exact ⟨w, hw, by simpa [T] using hx⟩
      · rintro ⟨w, hw, rfl⟩
        exact ⟨T w, List.mem_map_of_mem hw, by simp [T]⟩
    have hLv : ∀ x ∈ L, 0 ∉ x.1 ∧ x.2 ≠ [] := by
      intro x hx
      obtain ⟨w, _, rfl⟩ := (hL x).1 hx
      exact ⟨locKey_no0 _, by simp [ownChange]⟩
    have hF : ∀ w ∈ w0 :: ws, roundSpec (fun _ => none) ((T w0 :: ws.map T).map (·.1)) (locKey w.1) = some (w.2 ++ [0]) := by
      intro w hw
      rw [← List.map_cons, hT]
      unfold roundSpec
      cases hf : (((w0 :: ws).map fun w => [ownChange w]).flatten.find? fun x => x.1 = locKey w.1) with
      | none =>
        exact absurd rfl (find_key_none hf (ownChange w)
          (List.mem_flatten.2 ⟨_, List.mem_map_of_mem hw, by simp⟩))
      | some y =>
        obtain ⟨z1, z2⟩ := find_key hf
        obtain ⟨l, hl, hm⟩ := List.mem_flatten.1 z1
        obtain ⟨v, hv, rfl⟩ := List.mem_map.1 hl
        rw [List.mem_singleton] at hm
        subst hm
        rw [h.eq hv hw (locKey_inj (h.lid v hv).2 (h.lid w hw).2 z2)]
        rfl
    have known : ∀ w ∈ w0 :: ws, ∀ c s1 s2, setAll L { ownStore w with inSync := true, changes := c } = some s1 →
        syncEnd q s1 = some s2 → Clean (roundSpec (fun _ => none) ((T w0 :: ws.map T).map (·.1))) s2 →
        ∃ p, (setAllCb updLoc L ({ ownStore w with inSync := true, changes := c },
            ⟨n, (List.replicate n none).set w.1 (some w.2)⟩)).bind (syncEndCb q) = some p ∧
          Known n (w0 :: ws) ⟨p.2, some p.1⟩ := by
      intro w hw c s1 s2 g1 g2 g3
      obtain ⟨a, k1, k2, k3, k4, k5⟩ := setAllCb_known h e5 hL hw c g1
      refine ⟨(s2, a), ?_, k2, k3, k4, k5, s2, rfl, hT ▸ g3, hT ▸ hF⟩
      rw [k1, Option.bind_some, syncEndCb]
      simp only [g2]
      rfl
    -- own locations
    have hown : allSome (((w0 :: ws).map fun w => ((locNew n, w) : LocProc)).map fun p => locOwn p.2.1 p.2.2 (locInit p.1)) =
        some ((w0 :: ws).map fun w => (ownStore w, (⟨n, (List.replicate n none).set w.1 (some w.2)⟩ : LocArr))) := by
      rw [List.map_map]
      obtain ⟨r', f1, f2⟩ := allSome_map (w0 :: ws)
        ((fun p : LocProc => locOwn p.2.1 p.2.2 (locInit p.1)) ∘ fun w => (locNew n, w)) id
        (fun w y => y = (ownStore w, (⟨n, (List.replicate n none).set w.1 (some w.2)⟩ : LocArr)))
        (fun w hw => ⟨_, own_kvs w n (h.lid w hw).1, rfl⟩)
      rw [List.map_id] at f2
      rw [f1, forall₂_map_right f2]
    -- process 0
    have hs0 := e10 s0 (by simp)
    obtain ⟨s1, g1, g2⟩ := bind_some_of e7
    rw [chApply_spec e3 e4 hLv] at g1
    obtain ⟨p0, k1, k2⟩ := known w0 (by simp) (ownStore w0).changes s1 s0 g1 g2 hs0
    -- other processes
    have hslave : ∀ w ∈ ws, ∃ p, (syncRecvCb updLoc ({ ownStore w with inSync := true },
          (⟨n, (List.replicate n none).set w.1 (some w.2)⟩ : LocArr)) d.off d.data).bind (syncEndCb q) = some p ∧
        Known n (w0 :: ws) ⟨p.2, some p.1⟩ := by
      intro w hw
      have hall : ∃ s2, (syncRecv { ownStore w with inSync := true } d.off d.data).bind (syncEnd q) = some s2 ∧
          Clean (roundSpec (fun _ => none) ((T w0 :: ws.map T).map (·.1))) s2 := by
        rw [List.map_map, List.map_map] at e8
        obtain ⟨s2, m1, m2⟩ := allSome_mem e8 w hw
        exact ⟨s2, m2, e10 s2 (List.mem_cons_of_mem _ m1)⟩
      obtain ⟨s2, m1, m2⟩ := hall
      obtain ⟨s1, m3, m4⟩ := bind_some_of m1
      unfold syncRecv at m3
      unfold syncRecvCb
      have hne : L ≠ [] := List.ne_nil_of_mem ((hL (ownChange w0)).2 ⟨w0, by simp, rfl⟩)
      have ho : 0 < d.off.length := by rw [e3, jOff_length, if_neg hne]; omega
      rw [if_pos ho] at m3 ⊢
      split at m3
      · rename_i hdat
        rw [if_pos hdat]
        obtain ⟨c1, n1, n2⟩ := bind_some_of m3
        obtain ⟨c2, n3, n4⟩ := bind_some_of n2
        have hc2 : c2.off = d.off ∧ c2.data = d.data := by
          unfold chSetSize at n3
          split at n3
          · cases n3; exact ⟨rfl, rfl⟩
          · cases n3
        rw [chApply_spec (hc2.1.trans e3) (hc2.2.trans e4) hLv] at n4
        obtain ⟨p, o1, o2⟩ := known w (List.mem_cons_of_mem _ hw) c2 s1 s2 n4 m4 m2
        refine ⟨p, ?_, o2⟩
        simp only at n1
        simp only [n1, Option.bind_eq_bind, Option.bind_some, n3]
        rw [chApplyCb_spec updLoc (hc2.1.trans e3) (hc2.2.trans e4) hLv]
        exact o1
      · cases m3
    obtain ⟨r', f1, f2⟩ := allSome_map ws (fun w => (syncRecvCb updLoc ({ ownStore w with inSync := true },
          (⟨n, (List.replicate n none).set w.1 (some w.2)⟩ : LocArr)) d.off d.data).bind (syncEndCb q)) id
      (fun _ p => Known n (w0 :: ws) ⟨p.2, some p.1⟩) hslave
    have hlen : r'.length = ws.length := by
      have := f2.length_eq
      simpa using this.symm
    refine ⟨(p0 :: r').map fun p => ⟨p.2, some p.1⟩, ?_, by simp [hlen], ?_⟩
    · unfold locSync
      rw [hown]
      simp only [Option.bind_eq_bind, Option.bind_some]
      rw [List.map_cons, kvsSyncCb]
      have e1' : allSome ((ws.map fun w => (ownStore w, (⟨n, (List.replicate n none).set w.1 (some w.2)⟩ : LocArr))).map
          fun p => syncSend { p.1 with inSync := true }) =
            some (((ws.map T).map (·.2.1)).map fun j => (jOff j, jData j)) := by
        rw [← e1]
        simp only [List.map_map]
        rfl
      simp only [e1', Option.bind_eq_bind, Option.bind_some]
      rw [show syncMaster q { ownStore w0 with inSync := true } (((ws.map T).map (·.2.1)).map fun j => (jOff j, jData j)) =
        some d from e2, Option.bind_some, Option.bind_some]
      rw [chApplyCb_spec updLoc e3 e4 hLv, show (setAllCb updLoc L ({ ownStore w0 with inSync := true },
          (⟨n, (List.replicate n none).set w0.1 (some w0.2)⟩ : LocArr))).bind (syncEndCb q) = some p0 from k1, allSome,
        List.map_map]
      rw [show ((fun p : KVS × LocArr => (syncRecvCb updLoc ({ p.1 with inSync := true }, p.2) d.off d.data).bind (syncEndCb q)) ∘
        fun w : Nat × Bytes => (ownStore w, (⟨n, (List.replicate n none).set w.1 (some w.2)⟩ : LocArr))) =
        (fun w => (syncRecvCb updLoc ({ ownStore w with inSync := true },
          (⟨n, (List.replicate n none).set w.1 (some w.2)⟩ : LocArr)) d.off d.data).bind (syncEndCb q)) from rfl, f1]
      rfl
    · intro i hi
      obtain ⟨p, hp, rfl⟩ := List.mem_map.1 hi
      rcases List.mem_cons.1 hp with rfl | hp
      · exact k2
      · exact forall₂_right f2 (fun _ _ h => h) p hp

end Lc

/-! ## Theorems -/

/-- C67 (partial): after the first `laik_sync_location` of all processes of a world
(any location IDs, different from each other and fitting into the key; any strings)
no process aborted, and each process gets the right string for all processes in any
group.  Entries of location IDs not in the world stay null.
Missing, as false: a second call (`C67_again_aborts`), location IDs added by a resize
(`C67_growth_outside`), processes added later (`C67_added_unknown`), location IDs of 10
digits (`C67_key`). -/
theorem C67_locations_partial {q} (hq : IsQsort q) {n : Nat} {ws : List (Nat × Bytes)} (h : World n ws) :
    ∃ r, locSync q (ws.map fun w => (locNew n, w)) = some r ∧ r.length = ws.length ∧
      ∀ i ∈ r,
        (∀ (lids : List Nat) (id : Nat) (w : Nat × Bytes), w ∈ ws → lids[id]? = some w.1 →
          groupLocation i lids id = some (some w.2)) ∧
        (∀ (lids : List Nat) (id lid : Nat), lids[id]? = some lid → lid < n → (∀ w ∈ ws, w.1 ≠ lid) →
          groupLocation i lids id = some none) := by
  obtain ⟨r, h1, h2, h3⟩ := locSync_known hq h
  refine ⟨r, h1, h2, ?_⟩
  intro i hi
  have k := h3 i hi
  obtain ⟨s, hs, _⟩ := k.store
  refine ⟨?_, ?_⟩
  · intro lids id w hw hl
    unfold groupLocation
    rw [hs]
    simp only [hl, Option.bind_some]
    rw [if_pos (by rw [k.locs]; exact (h.lid w hw).1), k.all w hw]
  · intro lids id lid hl hlt hno
    unfold groupLocation
    rw [hs]
    simp only [hl, Option.bind_some]
    rw [if_pos (by rw [k.locs]; exact hlt), k.others lid hlt hno]

/-- Calling `laik_sync_location` again aborts with the MPI backend. -/
theorem C67_again_aborts {q} (hq : IsQsort q) {n : Nat} {ws : List (Nat × Bytes)} (h : World n ws) :
    ∃ r, locSync q (ws.map fun w => (locNew n, w)) = some r ∧ locSync q (r.zip ws) = none := by
  obtain ⟨r, h1, h2, h3⟩ := locSync_known hq h
  refine ⟨r, h1, ?_⟩
  have hne : r.zip ws ≠ [] := by
    obtain ⟨w, hw, _⟩ := h.some
    intro e
    have e1 := congrArg List.length e
    rw [List.length_zip, h2] at e1
    have := List.length_pos_of_mem hw
    rw [Nat.min_self, List.length_nil] at e1
    omega
  obtain ⟨ys, g1, g2⟩ := allSome_map (r.zip ws) (fun p => locOwn p.2.1 p.2.2 (locInit p.1)) id
    (fun _ y => Clean (roundSpec (fun _ => none) (ws.map fun w => [ownChange w])) y.1) (by
      rintro ⟨i, w⟩ hp
      have hw := (List.of_mem_zip hp).2
      have k := h3 i (List.of_mem_zip hp).1
      obtain ⟨s, hs, hc, hf⟩ := k.store
      refine ⟨(s, { i.mem with arr := i.mem.arr.set w.1 (some w.2) }), ?_, hc⟩
      unfold locOwn locInit
      simp only [hs]
      rw [if_pos (by rw [k.len]; exact (h.lid w hw).1)]
      unfold kvsSetCb
      simp only [kvsSet_prefix hc.inv.ent (by rw [hc.val]; exact hf w hw) (List.prefix_refl _), Option.bind_some, hc.sync]
      rfl)
  have hys : ys ≠ [] := by
    intro e
    have := g2.length_eq
    rw [e, List.length_map] at this
    exact hne (List.length_eq_zero_iff.1 this)
  have hcl : ∀ s ∈ ys.map (·.1), Clean (roundSpec (fun _ => none) (ws.map fun w => [ownChange w])) s := by
    intro s hs
    obtain ⟨y, hy, rfl⟩ := List.mem_map.1 hs
    exact forall₂_right g2 (fun _ _ h => h) y hy
  unfold locSync
  rw [g1]
  simp only [Option.bind_eq_bind, Option.bind_some]
  rw [kvsSyncCb_none updLoc (C26_no_change_aborts (by simpa using hys) hcl)]
  rfl

/-- After growth of the instance from `n` to `n'` locations, the array still has `n`
entries: for all new location IDs, the assert of the callback holds, but memory after
the end of the array is written, as it is by a process for its own location; and
`laik_group_location` reads after its end. -/
theorem C67_growth_outside {q} (hq : IsQsort q) {n n' : Nat} {ws : List (Nat × Bytes)} (h : World n ws) {lid : Nat}
    (h1 : n ≤ lid) (h2 : lid < n') (h3 : lid < 10 ^ 9) :
    ∃ r, locSync q (ws.map fun w => (locNew n, w)) = some r ∧ ∀ i ∈ r,
      lid < (locResize i n').mem.locations ∧ (∀ v, updLoc (locKey lid) v (locResize i n').mem = none) ∧
      (∀ loc, locOwn lid loc (locInit (locResize i n')) = none) ∧
      ∀ lids id, lids[id]? = some lid → groupLocation (locResize i n') lids id = none := by
  obtain ⟨r, e1, _, e3⟩ := locSync_known hq h
  refine ⟨r, e1, fun i hi => ?_⟩
  have hk := e3 i hi
  obtain ⟨s, hs, _⟩ := hk.store
  have hl : (locResize i n').mem.arr.length = n := hk.len
  have hst : (locResize i n').store = some s := hs
  refine ⟨h2, ?_, ?_, ?_⟩
  · intro v
    unfold updLoc
    rw [if_neg]
    rw [atoi_locKey h3, hl]
    omega
  · intro loc
    unfold locOwn locInit
    rw [hst]
    simp only
    rw [if_neg (by rw [hl]; omega)]
  · intro lids id hid
    unfold groupLocation
    rw [hst]
    simp only [hid, Option.bind_some]
    rw [if_pos (show lid < (locResize i n').mem.locations from h2)]
    exact List.getElem?_eq_none (by rw [hl]; exact h1)

/-- The key of a location ID can be read back exactly if it has at most 9 digits. -/
theorem C67_key (lid : Nat) : atoi (locKey lid) = lid ↔ lid < 10 ^ 9 := by
  refine ⟨fun h => ?_, atoi_locKey⟩
  rw [← h]
  exact atoi_locKey_big lid

/-- Two location IDs with the same key. -/
theorem C67_key_shared : locKey 1000000000 = locKey 1000000001 := by decide +kernel

/-- Locations "a" and "b" of processes 0 and 1. -/
def loc2 : List (Nat × Bytes) := [(0, [97]), (1, [98])]

/-- A process with location ID 2 which takes part in a later call (in arrays which were
large enough from the start) gets to know its own location only, as the others send
changes only; they get to know it. -/
theorem C67_added_unknown :
    ((locSync insSort (loc2.map fun w => (locNew 3, w))).bind fun r =>
      locSync insSort (r.zip loc2 ++ [(locNew 3, (2, [99]))])).map (fun r => r.map fun i => i.mem.arr) =
    some [[some [97], some [98], some [99]], [some [97], some [98], some [99]], [none, none, some [99]]] := by
  decide +kernel

/-- A single process with an empty location and a location ID of one digit aborts. -/
theorem C67_empty_aborts : locSync insSort [(locNew 1, (0, []))] = none := by decide +kernel

/-! ## Examples -/

example : World 4 [(3, [104, 58, 49]), (0, [104, 58, 50]), (2, [])] := by
  refine ⟨by decide, ?_, ?_, ⟨(3, [104, 58, 49]), by simp, by simp⟩⟩
  · intro w hw; simp only [List.mem_cons, List.not_mem_nil, or_false] at hw; rcases hw with rfl | rfl | rfl <;> decide
  · intro w hw; simp only [List.mem_cons, List.not_mem_nil, or_false] at hw; rcases hw with rfl | rfl | rfl <;> decide

example : (locSync insSort ([(3, [104, 58, 49]), (0, [104, 58, 50]), (2, [])].map fun w => (locNew 4, w))).map
    (fun r => r.map fun i => (i.mem.arr, groupLocation i [2, 3] 1)) =
    some (List.replicate 3 ([some [104, 58, 50], none, some [], some [104, 58, 49]], some (some [104, 58, 49]))) := by
  decide +kernel

end Laik
