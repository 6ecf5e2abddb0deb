import Verif.Model.CollEvs
/-!
# Effect of the events of collective operations, except for splitting
-/

namespace Laik.Mm

open Function

variable {S : Comm → Prop} {c : Comm}

theorem Comm.getElem?_proc {r : Nat} (h : r < c.tasks.length) : c.tasks[r]? = some (c.proc r) := by
  simp [Comm.proc, h]

theorem Comm.proc_mem {r : Nat} (h : r < c.tasks.length) : c.proc r ∈ c.tasks :=
  List.mem_of_getElem? (c.getElem?_proc h)

theorem Comm.proc_inj (hn : c.tasks.Nodup) {q r : Nat} (hq : q < c.tasks.length) (hr : r < c.tasks.length)
    (h : c.proc q = c.proc r) : q = r :=
  rank_inj hn (Comm.getElem?_proc hq) (h ▸ Comm.getElem?_proc hr)

theorem Comm.proc_idxOf {p : Nat} (h : p ∈ c.tasks) : c.proc (c.tasks.idxOf p) = p := by
  have := List.idxOf_lt_length_of_mem h
  simp [Comm.proc, this]

/-- Events with a change at different processes. -/
theorem run_star {σ : Type} (hn : c.tasks.Nodup) (P : (Nat → σ) → Prop) (f : Nat → Ev σ)
    (g : Nat → σ → Option σ) (t : Nat → σ) (es : List (Ev σ)) : ∀ (rs : List Nat) (st : Nat → σ),
    rs.Nodup → (∀ r ∈ rs, r < c.tasks.length) → P st →
    (∀ r ∈ rs, ∀ st, P st → (f r).step st = (g r (st (c.proc r))).map (update st (c.proc r))) →
    (∀ r ∈ rs, ∀ st x, P st → P (update st (c.proc r) x)) →
    (∀ r ∈ rs, g r (st (c.proc r)) = some (t (c.proc r))) →
    (∀ p, (∀ r ∈ rs, c.proc r ≠ p) → t p = st p) →
    run (rs.map f ++ es) st = run es t := by
  intro rs
  induction rs with
  | nil =>
    intro st _ _ _ _ _ _ h
    have : t = st := funext fun p => h p (by simp)
    rw [this]; rfl
  | cons r rs ih =>
    intro st hd hl hP hf hk hg ht
    obtain ⟨h1, hd⟩ := List.nodup_cons.mp hd
    have hne : ∀ q ∈ rs, c.proc q ≠ c.proc r := fun q hq e =>
      h1 (Comm.proc_inj hn (hl q (by simp [hq])) (hl r (by simp)) e ▸ hq)
    simp only [List.map_cons, List.cons_append, run, hf r (by simp) st hP, hg r (by simp), Option.map_some,
      Option.bind_some]
    refine ih _ hd (fun q hq => hl q (by simp [hq])) (hk r (by simp) _ _ hP)
      (fun q hq => hf q (by simp [hq])) (fun q hq => hk q (by simp [hq])) (fun q hq => ?_) fun p hp => ?_
    · rw [update_of_ne (hne q hq)]
      exact hg q (by simp [hq])
    · by_cases e : p = c.proc r
      · subst e; simp
      · rw [update_of_ne e]
        refine ht p fun q hq => ?_
        rcases List.mem_cons.mp hq with rfl | hq
        · exact fun h => e h.symm
        · exact hp q hq

theorem run_bcast (hn : c.tasks.Nodup) {x size root : Nat} {st t : Nat → PS}
    (h : evalBcast c x size root st = some t) (es : List (Ev PS)) :
    run (bcastE c x size root ++ es) st = run es t := by
  unfold evalBcast at h
  split at h
  · cases h
  · rename_i R hR
    split at h
    · rename_i hlen
      have hroot := (List.getElem?_eq_some_iff.mp hR).1
      have hp : c.proc root = R := proc_eq hR
      obtain rfl := Option.some.inj h
      have hb : (((st R).mem x).take size).length = size := by
        have := hlen R (hp ▸ Comm.proc_mem hroot)
        simp [this]
      have hne : ∀ r ∈ others c.tasks.length root, c.proc r ≠ R := fun r hr e =>
        (mem_others.mp hr).2 (Comm.proc_inj hn (mem_others.mp hr).1 hroot (e.trans hp.symm))
      refine run_star hn (fun s => s R = st R) _
        (fun _ s => bcastGot size x s (((st R).mem x).take size)) _ es _ _ (others_nodup _ _)
        (fun r hr => (mem_others.mp hr).1) rfl ?_ ?_ ?_ ?_
      · intro r hr s hs
        have h2 := Comm.getElem?_proc (mem_others.mp hr).1
        simp only [Ev.step, Chan.src, Chan.dst, hR, h2, hs]
      · intro r hr s x hs
        rw [update_of_ne (fun e => hne r hr e.symm)]
        exact hs
      · intro r hr
        have h1 := Comm.proc_mem (mem_others.mp hr).1
        simp [bcastGot, hb, h1, hne r hr]
      · intro p hp'
        refine if_neg fun ⟨h1, h2⟩ => ?_
        have h3 := Comm.proc_idxOf h1
        refine hp' (c.tasks.idxOf p) (mem_others.mpr ⟨List.idxOf_lt_length_of_mem h1, fun e => h2 ?_⟩) h3
        rw [← h3, e, hp]
    · cases h

/-! ### reduction -/

theorem leN_length (n v : Nat) : (leN n v).length = n := by
  induction n generalizing v with
  | zero => rfl
  | succ n ih => simp [leN, ih]

theorem addEl_length (F : Flt) (ty : MTy) (a b : Body) : (addEl F ty a b).length = ty.bytes := by
  cases ty <;> simp [addEl, leN_length, MTy.bytes]

theorem addVec_length (F : Flt) (ty : MTy) (n : Nat) (a b : Body) :
    (addVec F ty n a b).length = n * ty.bytes := by
  induction n generalizing a b with
  | zero => simp [addVec]
  | succ n ih => simp [addVec, addEl_length, ih, Nat.succ_mul, Nat.add_comm]

theorem PS.put_put (s : PS) (x : Nat) {a b : Body} (h : a.length = b.length) :
    (s.put x a).put x b = s.put x b := by
  simp only [PS.put, update_self, update_idem]
  rw [← h, List.drop_left]

theorem PS.put_take (s : PS) (x : Nat) {a : Body} {n : Nat} (h : a.length = n) :
    ((s.put x a).mem x).take n = a := by
  subst h
  simp [PS.put]

theorem PS.put_self (s : PS) (x n : Nat) : s.put x ((s.mem x).take n) = s := by
  have : (s.mem x).take n ++ (s.mem x).drop ((s.mem x).take n).length = s.mem x := by
    rw [List.length_take]
    rcases Nat.le_total n (s.mem x).length with h | h
    · rw [Nat.min_eq_left h, List.take_append_drop]
    · rw [Nat.min_eq_right h, List.drop_length, List.append_nil, List.take_of_length_le h]
  simp only [PS.put, this, update_eq_self]

theorem others_proc {root : Nat} (h : root < c.tasks.length) :
    (others c.tasks.length root).map c.proc = c.tasks.eraseIdx root := by
  have h1 : others c.tasks.length root = (List.range c.tasks.length).eraseIdx root := by
    have : others c.tasks.length root = (List.range c.tasks.length).erase root := by
      rw [List.nodup_range.erase_eq_filter]
      refine List.filter_congr fun x _ => ?_
      by_cases hx : x = root <;> simp [hx]
    rw [this, List.erase_eq_eraseIdx_of_idxOf]
    have := List.nodup_range (n := c.tasks.length) |>.idxOf_getElem root (by simpa using h)
    simpa using this
  have h2 : (List.range c.tasks.length).map c.proc = c.tasks := by
    apply List.ext_getElem
    · simp
    · intro i h1 h2
      simp [Comm.proc, h2]
  rw [h1, List.eraseIdx_eq_take_drop_succ, List.eraseIdx_eq_take_drop_succ, List.map_append, List.map_take,
    List.map_drop, h2]

theorem run_fold {F : Flt} {ty : MTy} {inp : Option Nat} {out n root R : Nat} (hn : c.tasks.Nodup)
    (hR : c.tasks[root]? = some R) {st : Nat → PS} (s0 : PS)
    (hd : ∀ p ∈ c.tasks, n * ty.bytes ≤ ((st p).mem (inp.getD out)).length) (es : List (Ev PS)) :
    ∀ (rs : List Nat) (a : Body), (∀ r ∈ rs, r < c.tasks.length ∧ r ≠ root) → a.length = n * ty.bytes →
    run (rs.map (fun r => Ev.tr ⟨c, tReduce, r, root, 0⟩ false
        (fun s => (s.mem (inp.getD out)).take (n * ty.bytes)) (reduceGot F ty .sum out n)) ++ es)
      (update st R (s0.put out a)) =
    run es (update st R (s0.put out ((rs.map c.proc).foldl
      (fun a p => addVec F ty n a (((st p).mem (inp.getD out)).take (n * ty.bytes))) a))) := by
  intro rs
  induction rs with
  | nil => exact fun a _ _ => rfl
  | cons r rs ih =>
    intro a hr ha
    obtain ⟨h1, h2⟩ := hr r (by simp)
    have h3 := Comm.getElem?_proc h1
    have hne : c.proc r ≠ R := proc_ne hn hR h1 h2
    have hl := hd _ (Comm.proc_mem h1)
    simp only [List.map_cons, List.cons_append, List.foldl_cons, run, Ev.step, Chan.src, Chan.dst, h3, hR,
      update_self, update_of_ne hne, reduceGot, List.length_take, Nat.min_eq_left hl, ne_eq, not_true,
      if_false, combine, PS.put_take s0 out ha, Option.map_some, update_idem, Option.bind_some]
    rw [PS.put_put _ _ (by rw [ha, addVec_length])]
    exact ih _ (fun q hq => hr q (by simp [hq])) (addVec_length ..)

theorem run_reduce (hn : c.tasks.Nodup) {F : Flt} {inp : Option Nat} {out n root : Nat} {ty : MTy} {op : MOp}
    {st t : Nat → PS} (h : evalReduce F c inp out n ty op root st = some t) (es : List (Ev PS)) :
    run (reduceE F c inp out n ty op root ++ es) st = run es t := by
  unfold evalReduce at h
  split at h
  · cases h
  · rename_i R hR
    simp only at h
    split at h
    · rename_i hlen
      split at h
      · rename_i hop
        obtain rfl := Option.some.inj h
        have hroot := (List.getElem?_eq_some_iff.mp hR).1
        have hp : c.proc root = R := proc_eq hR
        have hRm : R ∈ c.tasks := hp ▸ Comm.proc_mem hroot
        have hi : reduceInit inp out (n * ty.bytes) (st R) =
            (st R).put out (((st R).mem (inp.getD out)).take (n * ty.bytes)) := by
          cases inp with
          | none => exact (PS.put_self _ _ _).symm
          | some x => rfl
        simp only [reduceE, List.cons_append, run, Ev.step, hp, hi, Option.map_some, Option.bind_some]
        rw [← others_proc hroot]
        have ha : (((st R).mem (inp.getD out)).take (n * ty.bytes)).length = n * ty.bytes := by
          simp [hlen.2 R hRm]
        rcases hop with rfl | hop
        · exact run_fold hn hR (st R) hlen.2 es _ _ (fun r hr => mem_others.mp hr) ha
        · have : others c.tasks.length root = [] := by
            refine List.eq_nil_iff_forall_not_mem.mpr fun r hr => ?_
            have := mem_others.mp hr
            omega
          rw [this]
          rfl
      · cases h
    · cases h

theorem run_barrier (hn : c.tasks.Nodup) (st : Nat → PS) (es : List (Ev PS)) :
    run (barrierE c ++ es) st = run es st := by
  have key : ∀ (f : Nat → Ev PS) (es : List (Ev PS)),
      (∀ r ∈ others c.tasks.length 0, ∀ st, (f r).step st = some st) →
      run ((others c.tasks.length 0).map f ++ es) st = run es st := by
    intro f es hf
    refine run_star hn (fun _ => True) f (fun _ => some) st es _ _ (others_nodup _ _)
      (fun r hr => (mem_others.mp hr).1) trivial ?_ (fun _ _ _ _ _ => trivial) (fun _ _ => rfl) fun _ _ => rfl
    intro r hr s _
    simp [hf r hr s]
  simp only [barrierE, List.append_assoc]
  have h0 : ∀ r ∈ others c.tasks.length 0, 0 < c.tasks.length := fun r hr => by
    have := mem_others.mp hr; omega
  rw [key, key]
  all_goals
    intro r hr s
    have h1 := Comm.getElem?_proc (h0 r hr)
    have h2 := Comm.getElem?_proc (mem_others.mp hr).1
    simp [Ev.step, Chan.src, Chan.dst, h1, h2]

theorem run_p2p {s r tag x size y cap : Nat} {F : Flt} {st t : Nat → PS}
    (h : (Call.p2p c s r tag x size y cap).eval F st = some t) (es : List (Ev PS)) :
    run (p2pE c s r tag x size y cap ++ es) st = run es t := by
  simp only [Call.eval] at h
  split at h
  · rename_i P Q hP hQ
    split at h
    · rename_i hl
      obtain rfl := Option.some.inj h
      have h1 : ¬ cap < size := by omega
      simp [p2pE, run, Ev.step, Chan.src, Chan.dst, hP, hQ, recvGot, Nat.min_eq_left hl.1, h1]
    · cases h
  · cases h

end Laik.Mm
