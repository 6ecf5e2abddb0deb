import Verif.Model.TcpSwitch
import Verif.Model.TcpStatic
import Verif.Model.CollMain
/-!
# Reductions of the TCP backend based on GLib as sequences of events
-/

namespace Laik.Tc

open Laik.Mm Laik.Mp Function

/-! ### memory -/

theorem read_write (m : Mem) (d : Nat) {b : Body} {n : Nat} (h : b.length = n) : readMem (writeMem m d b) d n = b := by
  subst h
  apply List.ext_getElem
  · simp [readMem]
  · intro i h1 h2
    simp [readMem, writeMem, h2]

theorem write_read (m : Mem) (d n : Nat) : writeMem m d (readMem m d n) = m := by
  funext x
  simp only [writeMem, readMem]
  split
  · rename_i h
    by_cases h2 : x - d < n
    · simp [h2, Nat.add_sub_cancel' h]
    · rw [List.getD_eq_getElem?_getD, List.getElem?_eq_none (by simpa using h2)]
      rfl
  · rfl

theorem write_write (m : Mem) (d : Nat) {a b : Body} (h : a.length = b.length) : writeMem (writeMem m d a) d b = writeMem m d b := by
  funext x
  simp only [writeMem]
  split
  · rename_i hx
    by_cases h2 : x - d < b.length
    · simp [h2]
    · have h3 : ¬ x - d < a.length := by omega
      simp [h2, h3]
  · rfl

/-! ### result of a collective -/

/-- Result of a reduction by messages to the root. -/
def mmCf (F : Flt) (ty : MTy) (N : Nat) (k : Nat) (w : Nat → Body) (_ : Nat) : Body :=
  let R := (Nat.unpair k).1 - 1
  if R < N then (others N R).foldl (fun a q => addVec F ty ((w R).length / ty.bytes) a (w q)) (w R) else []

theorem bytes_pos (ty : MTy) : 0 < ty.bytes := by cases ty <;> decide

theorem slice_addVec (F : Flt) (ty : MTy) : ∀ (n : Nat) (a b : Body) (j : Nat), j < n →
    slice ty.bytes (addVec F ty n a b) j = addEl F ty (slice ty.bytes a j) (slice ty.bytes b j) := by
  intro n
  induction n with
  | zero => intro a b j h; omega
  | succ n ih =>
    intro a b j h
    cases j with
    | zero =>
      rw [addVec, slice_zero _ _ (addEl_length ..)]
      simp [slice]
    | succ j =>
      have e : ∀ l : Body, slice ty.bytes (l.drop ty.bytes) j = slice ty.bytes l (j + 1) := by
        intro l
        simp only [slice, List.drop_drop]
        congr 2
        rw [Nat.succ_mul, Nat.add_comm]
      rw [addVec, slice_cons _ _ (addEl_length ..), ih _ _ j (by omega), e, e]

theorem fold_addVec_length (F : Flt) (ty : MTy) (n : Nat) (w : Nat → Body) : ∀ (l : List Nat) (a : Body), a.length = n * ty.bytes →
    (l.foldl (fun a q => addVec F ty n a (w q)) a).length = n * ty.bytes := by
  intro l
  induction l with
  | nil => exact fun a h => h
  | cons q l ih => exact fun a h => ih _ (addVec_length ..)

theorem Comb.perm {α : Type} {red : α → α → α} {A B : List α} {v : α} (h : Comb red A v) (hp : A.Perm B) : Comb red B v := by
  cases h with
  | one => rw [← List.singleton_perm.1 hp]; exact .one _
  | app ha hb h => exact .app ha hb (h.trans hp)

theorem others_perm {N R : Nat} (h : R < N) : (R :: others N R).Perm (List.range N) := by
  refine (List.perm_ext_iff_of_nodup ?_ List.nodup_range).2 fun q => ?_
  · exact List.nodup_cons.2 ⟨fun h => (mem_others.1 h).2 rfl, others_nodup _ _⟩
  · rw [List.mem_cons, mem_others, List.mem_range]
    omega

theorem mmCf_ok {s : MSetup UInt8} {F : Flt} {ty : MTy} (hes : s.es = ty.bytes)
    (hr : ∀ a b : Body, a.length = s.es → b.length = s.es → s.red a b = addEl F ty a b) : Mp.CollOK s (mmCf F ty s.n) where
  loc k w w' p h := by
    unfold mmCf
    simp only
    split
    · rename_i hR
      rw [h _ hR]
      apply List.foldl_ext
      intro a q hq
      rw [h q (mem_others.1 hq).1]
    · rfl
  val root p w m hp hroot hw := by
    obtain ⟨R, hR, e⟩ : ∃ R, R < s.n ∧ (Nat.unpair (collNo root s.redOp)).1 - 1 = R := by
      refine ⟨_, ?_, rfl⟩
      unfold collNo
      rw [Nat.unpair_pair]
      rcases hroot with rfl | rfl
      · simp only; omega
      · simp only; omega
    have e2 : mmCf F ty s.n (collNo root s.redOp) w p = (others s.n R).foldl (fun a q => addVec F ty m a (w q)) (w R) := by
      unfold mmCf
      simp only [e, if_pos hR]
      rw [hw R hR, hes, Nat.mul_div_cancel _ (bytes_pos ty)]
    have key : ∀ (l : List Nat) (a : Body), (∀ q ∈ l, q < s.n) → a.length = m * s.es → ∀ j < m,
        slice s.es (l.foldl (fun a q => addVec F ty m a (w q)) a) j = l.foldl (fun x q => s.red x (slice s.es (w q) j)) (slice s.es a j) := by
      intro l
      induction l with
      | nil => intro a _ _ j _; rfl
      | cons q l ih =>
        intro a hl ha j hj
        rw [List.foldl_cons, List.foldl_cons, ih _ (fun x hx => hl x (List.mem_cons_of_mem _ hx)) (by rw [addVec_length, hes]) j hj]
        congr 1
        rw [hr _ _ (slice_length ha hj) (slice_length (hw q (hl q List.mem_cons_self)) hj), hes, slice_addVec _ _ _ _ _ _ hj]
    rw [e2]
    refine ⟨by rw [hes]; exact fold_addVec_length _ _ _ _ _ _ (by rw [hw R hR, hes]), fun j hj => ?_⟩
    rw [key _ _ (fun q hq => (mem_others.1 hq).1) (hw R hR) j hj]
    have := comb_foldl (red := s.red) (fun q => slice s.es (w q) j) (others s.n R) [slice s.es (w R) j] _ (.one _)
    refine Comb.perm this ?_
    exact (others_perm hR).map (fun q => slice s.es (w q) j)

/-- A collective as done here, if collectives are used. -/
theorem cf_ex {s : MSetup UInt8} {F : Flt} {ty : MTy} (hes : s.es = ty.bytes)
    (hlen : ∀ a b : Body, a.length = s.es → b.length = s.es → (s.red a b).length = s.es) {P : Prop}
    (hr : P → ∀ a b : Body, a.length = s.es → b.length = s.es → s.red a b = addEl F ty a b) :
    ∃ cf, Mp.CollOK s cf ∧ (P → cf = mmCf F ty s.n) := by
  by_cases h : P
  · exact ⟨_, mmCf_ok hes (hr h), fun _ => rfl⟩
  · by_cases hn : 0 < s.n
    · exact ⟨_, collRef_ok s hn (hes ▸ bytes_pos ty) hlen, fun h' => absurd h' h⟩
    · exact ⟨fun _ _ _ => [], ⟨fun _ _ _ _ _ => rfl, fun _ p _ _ hp => absurd hp (by omega)⟩, fun h' => absurd h' h⟩

/-! ### events -/

variable {S : Comm → Prop} {c : Comm} {F : Flt} {ty : MTy}

def redE (F : Flt) (ty : MTy) (c : Comm) (root : Nat) (op : Mm.MOp) (n : Nat) (src dst : Nat → Nat) : List (Ev Mem) :=
  .loc (c.proc root) (fun m => some (redInit (src root) (dst root) (n * ty.bytes) m)) ::
  (others c.tasks.length root).map fun r =>
    .tr ⟨c, tReduce, r, root, 0⟩ false (fun m => readMem m (src r) (n * ty.bytes)) (redGot F ty op (dst root) n)

def bcE (c : Comm) (root len : Nat) (dst : Nat → Nat) : List (Ev Mem) :=
  (others c.tasks.length root).map fun r =>
    .tr ⟨c, tBroadcast, root, r, 0⟩ false (fun m => readMem m (dst root) len) (bcGot len (dst r))

theorem redE_wf {root n : Nat} {op : Mm.MOp} {src dst : Nat → Nat} (hc : S c) (hr : root < c.tasks.length) {es : List (Ev Mem)}
    (he : WF S none es) : WF S none (redE F ty c root op n src dst ++ es) :=
  WF.trs _ _ (fun r m => readMem m (src r) (n * ty.bytes)) _ _ _ (fun r h => by
    obtain ⟨h1, h2⟩ := mem_others.mp h
    exact ⟨hc, h1, hr, h2⟩) he

theorem bcE_wf {root len : Nat} {dst : Nat → Nat} (hc : S c) (hr : root < c.tasks.length) {es : List (Ev Mem)}
    (he : WF S none es) : WF S none (bcE c root len dst ++ es) := by
  unfold bcE
  have key : ∀ l : List Nat, (∀ r ∈ l, r < c.tasks.length ∧ r ≠ root) → WF S none (l.map (fun r =>
      Ev.tr ⟨c, tBroadcast, root, r, 0⟩ false (fun m => readMem m (dst root) len) (bcGot len (dst r))) ++ es) := by
    intro l
    induction l with
    | nil => exact fun _ => he
    | cons x l ih =>
      intro hl
      obtain ⟨h1, h2⟩ := hl x (by simp)
      exact ⟨⟨hc, hr, h1, fun e => h2 e.symm⟩, ih fun r hr => hl r (by simp [hr])⟩
  exact key _ fun r h => mem_others.mp h

theorem redE_proj (hn : c.tasks.Nodup) {rank root n : Nat} (hr : rank < c.tasks.length) (hroot : root < c.tasks.length)
    (op : Mm.MOp) (src dst : Nat → Nat) (es : List (Ev Mem)) (m : Mem) :
    proj (c.proc rank) (redE F ty c root op n src dst ++ es) m =
      redP F ty c rank root op (src rank) (dst rank) n m (proj (c.proc rank) es) := by
  have hp := Comm.getElem?_proc hr
  unfold redP
  by_cases h : root = rank
  · subst h
    simp only [redE, List.cons_append, proj, if_true]
    exact proj_recv hn hp (fun r m => readMem m (src r) (n * ty.bytes)) _ es _ (fun h => (mem_others.1 h).2 rfl) _
  · have hne : c.proc root ≠ c.proc rank := fun e => h (Comm.proc_inj hn hroot hr e)
    simp only [redE, List.cons_append, proj, if_neg hne, if_neg h]
    exact proj_send1 hn hp (others_nodup _ _) (mem_others.2 ⟨hr, fun e => h e.symm⟩) h
      (fun r m => readMem m (src r) (n * ty.bytes)) _ es m

theorem bcE_proj (hn : c.tasks.Nodup) {rank root len : Nat} (hr : rank < c.tasks.length) (hroot : root < c.tasks.length)
    (dst : Nat → Nat) (es : List (Ev Mem)) (m : Mem) :
    proj (c.proc rank) (bcE c root len dst ++ es) m = bcP c rank root len (dst rank) m (proj (c.proc rank) es) := by
  have hp := Comm.getElem?_proc hr
  unfold bcP
  by_cases h : rank = root
  · subst h
    rw [if_pos rfl]
    have key : ∀ l : List Nat, proj (c.proc rank) (l.map (fun r =>
        Ev.tr ⟨c, tBroadcast, rank, r, 0⟩ false (fun m => readMem m (dst rank) len) (bcGot len (dst r))) ++ es) m =
        sendAll c rank tBroadcast (readMem m (dst rank) len) l (proj (c.proc rank) es m) := by
      intro l
      induction l with
      | nil => rfl
      | cons r l ih =>
        have h : Chan.src ⟨c, tBroadcast, rank, r, 0⟩ = some (c.proc rank) := hp
        simp only [List.map_cons, List.cons_append, proj, if_pos h, sendAll, ih]
        rfl
    exact key _
  · rw [if_neg h]
    have hs : ∀ r, ¬ Chan.src ⟨c, tBroadcast, root, r, 0⟩ = some (c.proc rank) := fun r e => h ((rank_iff hn hp).mp e).symm
    obtain ⟨l', h1, h2⟩ := proj_one (others_nodup c.tasks.length root) (mem_others.2 ⟨hr, h⟩)
      (fun r => Ev.tr ⟨c, tBroadcast, root, r, 0⟩ false (fun m => readMem m (dst root) len) (bcGot len (dst r))) (p := c.proc rank)
      (fun q _ hq => ⟨hs q, fun e => hq ((rank_iff hn hp).mp e)⟩) es
    have h' : Chan.dst ⟨c, tBroadcast, root, rank, 0⟩ = some (c.proc rank) := hp
    unfold bcE
    rw [h1]
    simp only [proj, if_neg (hs _), if_pos h']
    congr 1
    funext b
    cases bcGot len (dst rank) m b with
    | none => rfl
    | some s' => exact h2 s'

theorem tr_off {p : Nat} (hp : p ∉ c.tasks) (t i j g : Nat) (sy : Bool) (out : Mem → Body) (upd : Mem → Body → Option Mem) :
    (Ev.tr ⟨c, t, i, j, g⟩ sy out upd).off p :=
  ⟨fun h => hp (List.mem_of_getElem? h), fun h => hp (List.mem_of_getElem? h)⟩

theorem redE_off {p root n : Nat} {op : Mm.MOp} {src dst : Nat → Nat} (hp : p ∉ c.tasks) (hroot : root < c.tasks.length) :
    ∀ e ∈ redE F ty c root op n src dst, e.off p := by
  intro e he
  rcases List.mem_cons.1 he with rfl | he
  · exact fun e => hp (e ▸ Comm.proc_mem hroot)
  · obtain ⟨r, _, rfl⟩ := List.mem_map.1 he
    exact tr_off hp ..

theorem bcE_off {p root len : Nat} {dst : Nat → Nat} (hp : p ∉ c.tasks) : ∀ e ∈ bcE c root len dst, e.off p := by
  intro e he
  obtain ⟨r, _, rfl⟩ := List.mem_map.1 he
  exact tr_off hp ..

theorem run_redE (hn : c.tasks.Nodup) {root n : Nat} (hroot : root < c.tasks.length) (src dst : Nat → Nat) (st : Nat → Mem)
    (es : List (Ev Mem)) :
    run (redE F ty c root .sum n src dst ++ es) st = run es (update st (c.proc root) (writeMem (st (c.proc root)) (dst root)
      ((others c.tasks.length root).foldl (fun a r => addVec F ty n a (readMem (st (c.proc r)) (src r) (n * ty.bytes)))
        (readMem (st (c.proc root)) (src root) (n * ty.bytes))))) := by
  have hR := Comm.getElem?_proc hroot
  have hi : ∀ m : Mem, redInit (src root) (dst root) (n * ty.bytes) m =
      writeMem m (dst root) (readMem m (src root) (n * ty.bytes)) := by
    intro m
    unfold redInit
    split
    · rename_i h; rw [h, write_read]
    · rfl
  simp only [redE, List.cons_append, run, Ev.step, hi, Option.map_some, Option.bind_some]
  have key : ∀ (l : List Nat) (a : Body), (∀ r ∈ l, r < c.tasks.length ∧ r ≠ root) → a.length = n * ty.bytes →
      run (l.map (fun r => Ev.tr ⟨c, tReduce, r, root, 0⟩ false (fun m => readMem m (src r) (n * ty.bytes)) (redGot F ty .sum (dst root) n)) ++ es)
        (update st (c.proc root) (writeMem (st (c.proc root)) (dst root) a)) =
      run es (update st (c.proc root) (writeMem (st (c.proc root)) (dst root)
        (l.foldl (fun a r => addVec F ty n a (readMem (st (c.proc r)) (src r) (n * ty.bytes))) a))) := by
    intro l
    induction l with
    | nil => exact fun a _ _ => rfl
    | cons r l ih =>
      intro a hl ha
      obtain ⟨h1, h2⟩ := hl r (by simp)
      have h3 := Comm.getElem?_proc h1
      have hne : c.proc r ≠ c.proc root := fun e => h2 (Comm.proc_inj hn h1 hroot e)
      simp only [List.map_cons, List.cons_append, List.foldl_cons, run, Ev.step, Chan.src, Chan.dst, h3, hR,
        update_self, update_of_ne hne, redGot, readMem_length, ne_eq, not_true, if_false, Mm.combine, read_write _ _ ha,
        Option.map_some, update_idem, Option.bind_some]
      rw [write_write _ _ (by rw [ha, addVec_length])]
      exact ih _ (fun q hq => hl q (by simp [hq])) (addVec_length ..)
  exact key _ _ (fun r hr => mem_others.1 hr) (readMem_length ..)

theorem run_bcE (hn : c.tasks.Nodup) {root len : Nat} (hroot : root < c.tasks.length) (dst : Nat → Nat) (st : Nat → Mem)
    (es : List (Ev Mem)) :
    run (bcE c root len dst ++ es) st = run es (fun p => if p ∈ c.tasks ∧ p ≠ c.proc root then
      writeMem (st p) (dst (c.tasks.idxOf p)) (readMem (st (c.proc root)) (dst root) len) else st p) := by
  have hR := Comm.getElem?_proc hroot
  have hne : ∀ r ∈ others c.tasks.length root, c.proc r ≠ c.proc root := fun r hr e =>
    (mem_others.mp hr).2 (Comm.proc_inj hn (mem_others.mp hr).1 hroot e)
  refine run_star hn (fun s => s (c.proc root) = st (c.proc root)) _
    (fun r m => bcGot len (dst r) m (readMem (st (c.proc root)) (dst root) len)) _ es _ _ (others_nodup _ _)
    (fun r hr => (mem_others.mp hr).1) rfl ?_ ?_ ?_ ?_
  · intro r hr s hs
    have h2 := Comm.getElem?_proc (mem_others.mp hr).1
    simp only [Ev.step, Chan.src, Chan.dst, hR, h2, hs]
  · intro r hr s x hs
    rw [update_of_ne (fun e => hne r hr e.symm)]
    exact hs
  · intro r hr
    have h1 := Comm.proc_mem (mem_others.mp hr).1
    have h3 : c.tasks.idxOf (c.proc r) = r :=
      Comm.proc_inj hn (List.idxOf_lt_length_of_mem h1) (mem_others.1 hr).1 (Comm.proc_idxOf h1)
    simp [bcGot, readMem_length, h1, hne r hr, h3]
  · intro p hp'
    refine if_neg fun ⟨h1, h2⟩ => ?_
    have h3 := Comm.proc_idxOf h1
    refine hp' (c.tasks.idxOf p) (mem_others.mpr ⟨List.idxOf_lt_length_of_mem h1, fun e => h2 ?_⟩) h3
    rw [← h3, e]

end Laik.Tc
