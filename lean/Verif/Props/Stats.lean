import Verif.Model.Stats
import Verif.Props.Async
import Verif.Props.Combine
/-!
# Statistics of action sequences (C44)
-/

namespace Laik

/-! ### Specification -/

def AT.isSendT (t : AT) : Bool := decide (t ∈ [AT.mapSend, .bufSend, .rbufSend, .packAndSend, .mapPackAndSend])

def AT.isRecvT (t : AT) : Bool := decide (t ∈ [AT.mapRecv, .bufRecv, .rbufRecv, .recvAndUnpack, .mapRecvAndUnpack])

def AT.isRedT (t : AT) : Bool := decide (t ∈ [AT.reduce, .rbufReduce, .groupReduce, .mapGroupReduce, .rbufGroupReduce])

/-- Sum over all actions of some types. -/
def statSum (p : AT → Bool) (f : SAct → Nat) (l : List SAct) : Nat := ((l.filter (fun a => p a.type)).map f).sum

/-! ### Proofs -/

theorem statSum_cons (p : AT → Bool) (f : SAct → Nat) (a : SAct) (l : List SAct) :
    statSum p f (a :: l) = (if p a.type then f a else 0) + statSum p f l := by
  unfold statSum
  rw [List.filter_cons]
  split <;> simp

theorem statSum_append (p : AT → Bool) (f : SAct → Nat) (l l' : List SAct) :
    statSum p f (l ++ l') = statSum p f l + statSum p f l' := by
  unfold statSum
  simp

theorem foldl_add (l : List Nat) (n : Nat) : l.foldl (· + ·) n = n + l.sum := by
  induction l generalizing n with
  | nil => simp
  | cons a l ih => rw [List.foldl_cons, ih, List.sum_cons]; omega

/-- Numbers relevant for C44. -/
def SStat.core (s : SStat) : List Nat :=
  [s.msgSend, s.elemSend, s.byteSend, s.msgRecv, s.elemRecv, s.byteRecv, s.msgReduce, s.elemReduce, s.byteReduce]

theorem statStep_core (es : Nat) (st : SStat) (a : SAct) (ha : a.type ≠ .bufReserve) :
    ∃ st', statStep es st a = some st' ∧
      st'.core = [st.msgSend + (if a.type.isSendT then 1 else 0), st.elemSend + (if a.type.isSendT then a.count else 0),
        st.byteSend + (if a.type.isSendT then a.count * es % 4294967296 else 0),
        st.msgRecv + (if a.type.isRecvT then 1 else 0), st.elemRecv + (if a.type.isRecvT then a.count else 0),
        st.byteRecv + (if a.type.isRecvT then a.count * es % 4294967296 else 0),
        st.msgReduce + (if a.type.isRedT then 1 else 0), st.elemReduce + (if a.type.isRedT then a.count else 0),
        st.byteReduce + (if a.type.isRedT then a.count * es % 4294967296 else 0)] ∧
      st'.msgAsyncSend = st.msgAsyncSend ∧ st'.msgAsyncRecv = st.msgAsyncRecv := by
  obtain ⟨t, c, ce⟩ := a
  cases t
  case bufReserve => exact absurd rfl ha
  all_goals exact ⟨_, rfl, rfl, rfl, rfl⟩

theorem statGo_core (es : Nat) (l : List SAct) (hl : ∀ a ∈ l, a.type ≠ .bufReserve) : ∀ st, ∃ st', statGo es st l = some st' ∧
    st'.core = [st.msgSend + statSum AT.isSendT (fun _ => 1) l, st.elemSend + statSum AT.isSendT (·.count) l,
      st.byteSend + statSum AT.isSendT (fun a => a.count * es % 4294967296) l,
      st.msgRecv + statSum AT.isRecvT (fun _ => 1) l, st.elemRecv + statSum AT.isRecvT (·.count) l,
      st.byteRecv + statSum AT.isRecvT (fun a => a.count * es % 4294967296) l,
      st.msgReduce + statSum AT.isRedT (fun _ => 1) l, st.elemReduce + statSum AT.isRedT (·.count) l,
      st.byteReduce + statSum AT.isRedT (fun a => a.count * es % 4294967296) l] ∧
    st'.msgAsyncSend = st.msgAsyncSend ∧ st'.msgAsyncRecv = st.msgAsyncRecv := by
  induction l with
  | nil => intro st; exact ⟨st, rfl, rfl, rfl, rfl⟩
  | cons a l ih =>
    intro st
    obtain ⟨s1, h1, h2, h3, h4⟩ := statStep_core es st a (hl a List.mem_cons_self)
    obtain ⟨s2, h5, h6, h7, h8⟩ := ih (fun b hb => hl b (List.mem_cons_of_mem _ hb)) s1
    refine ⟨s2, by rw [statGo, h1]; exact h5, ?_, by rw [h7, h3], by rw [h8, h4]⟩
    rw [h6]
    simp only [SStat.core, List.cons.injEq, and_true] at h2
    obtain ⟨e1, e2, e3, e4, e5, e6, e7, e8, e9⟩ := h2
    simp only [statSum_cons, e1, e2, e3, e4, e5, e6, e7, e8, e9, Nat.add_assoc]

/-- Without buffer reservations (they are removed by buffer allocation), the
number of messages and elements are the sums over the send, receive and reduce
actions; each product of number of elements and element size is reduced modulo
2^32. -/
theorem C44_sums (es : Nat) (l : List SAct) (hl : ∀ a ∈ l, a.type ≠ .bufReserve) :
    ∃ st, calcStats es l = some st ∧
      st.msgSend = statSum AT.isSendT (fun _ => 1) l ∧ st.elemSend = statSum AT.isSendT (·.count) l ∧
      st.byteSend = statSum AT.isSendT (fun a => a.count * es % 4294967296) l ∧
      st.msgRecv = statSum AT.isRecvT (fun _ => 1) l ∧ st.elemRecv = statSum AT.isRecvT (·.count) l ∧
      st.byteRecv = statSum AT.isRecvT (fun a => a.count * es % 4294967296) l ∧
      st.msgReduce = statSum AT.isRedT (fun _ => 1) l ∧ st.elemReduce = statSum AT.isRedT (·.count) l ∧
      st.byteReduce = statSum AT.isRedT (fun a => a.count * es % 4294967296) l := by
  obtain ⟨st, h1, h2, _⟩ := statGo_core es l hl {}
  refine ⟨st, h1, ?_⟩
  simpa only [SStat.core, List.cons.injEq, and_true, Nat.zero_add] using h2

theorem statSum_congr (p : AT → Bool) (f g : SAct → Nat) (l : List SAct) (h : ∀ a ∈ l, f a = g a) :
    statSum p f l = statSum p g l := by
  unfold statSum
  congr 1
  apply List.map_congr_left
  intro a ha
  exact h a (List.mem_filter.1 ha).1

/-- Byte counts are the sums of the message sizes if no single message has 2^32
bytes or more. -/
theorem C44_bytes_partial (es : Nat) (l : List SAct) (hl : ∀ a ∈ l, a.type ≠ .bufReserve)
    (hsize : ∀ a ∈ l, a.count * es < 4294967296) :
    ∃ st, calcStats es l = some st ∧ st.byteSend = statSum AT.isSendT (fun a => a.count * es) l ∧
      st.byteRecv = statSum AT.isRecvT (fun a => a.count * es) l ∧
      st.byteReduce = statSum AT.isRedT (fun a => a.count * es) l := by
  obtain ⟨st, h0, _, _, h1, _, _, h2, _, _, h3⟩ := C44_sums es l hl
  have key : ∀ p, statSum p (fun a => a.count * es % 4294967296) l = statSum p (fun a => a.count * es) l :=
    fun p => statSum_congr p _ _ l (fun a ha => Nat.mod_eq_of_lt (hsize a ha))
  exact ⟨st, h0, by rw [h1, key], by rw [h2, key], by rw [h3, key]⟩

/-- Disagreement: sending 2^29 numbers of 8 bytes counts as 0 bytes. -/
theorem C44_bytes_overflow : (calcStats 8 [⟨.bufSend, 536870912, []⟩]).map (·.byteSend) = some 0 := by decide +kernel

/-- Sequences with buffer reservations can not be counted (assert in line 2464). -/
theorem C44_reserve_aborts (es : Nat) (l l' : List SAct) (c : Nat) (ce : List Nat) :
    calcStats es (l ++ ⟨.bufReserve, c, ce⟩ :: l') = none := by
  have key : ∀ (l : List SAct) st, statGo es st (l ++ ⟨.bufReserve, c, ce⟩ :: l') = none := by
    intro l
    induction l with
    | nil => intro st; rfl
    | cons a l ih =>
      intro st
      rw [List.cons_append, statGo]
      cases statStep es st a with
      | none => rfl
      | some s => exact ih s
  exact key l {}

example : calcStats 8 [⟨.packToBuf, 10, []⟩, ⟨.bufSend, 10, []⟩, ⟨.bufRecv, 3, []⟩, ⟨.reduce, 4, []⟩, ⟨.rbufSend, 5, []⟩] =
    some { msgSend := 2, elemSend := 15, byteSend := 120, msgRecv := 1, elemRecv := 3, byteRecv := 24,
           msgReduce := 1, elemReduce := 4, byteReduce := 32, byteBufCopy := 80 } := by decide +kernel

/-! ### Work done locally -/

/-- Specification: types of actions copying `count` elements between memory and buffers. -/
def AT.isElemCopyT (t : AT) : Bool :=
  decide (t ∈ [AT.packAndSend, .mapPackAndSend, .recvAndUnpack, .mapRecvAndUnpack, .rbufCopy, .bufCopy,
    .packToRBuf, .packToBuf, .mapPackToRBuf, .mapPackToBuf,
    .unpackFromRBuf, .unpackFromBuf, .mapUnpackFromRBuf, .mapUnpackFromBuf])

/-- Specification: types of actions with a list of copies. -/
def AT.isListCopyT (t : AT) : Bool := decide (t ∈ [AT.copyToBuf, .copyToRBuf, .copyFromBuf, .copyFromRBuf])

theorem statStep_local (es : Nat) (st : SStat) (a : SAct) (ha : a.type ≠ .bufReserve) :
    ∃ st', statStep es st a = some st' ∧
      st'.byteBufCopy = st.byteBufCopy + (if a.type.isElemCopyT then a.count * es % 4294967296 else 0) +
        (if a.type.isListCopyT then a.ce.sum else 0) ∧
      st'.reduceOp = st.reduceOp + (if a.type == .rbufLocalReduce then a.count else 0) ∧
      st'.initOp = st.initOp + (if a.type == .bufInit then a.count else 0) := by
  obtain ⟨t, c, ce⟩ := a
  cases t
  case bufReserve => exact absurd rfl ha
  case copyToBuf => exact ⟨_, rfl, by rw [foldl_add]; rfl, rfl, rfl⟩
  case copyToRBuf => exact ⟨_, rfl, by rw [foldl_add]; rfl, rfl, rfl⟩
  case copyFromBuf => exact ⟨_, rfl, by rw [foldl_add]; rfl, rfl, rfl⟩
  case copyFromRBuf => exact ⟨_, rfl, by rw [foldl_add]; rfl, rfl, rfl⟩
  all_goals exact ⟨_, rfl, rfl, rfl, rfl⟩

theorem statGo_local (es : Nat) (l : List SAct) (hl : ∀ a ∈ l, a.type ≠ .bufReserve) : ∀ st, ∃ st', statGo es st l = some st' ∧
    st'.byteBufCopy = st.byteBufCopy + (statSum AT.isElemCopyT (fun a => a.count * es % 4294967296) l +
      statSum AT.isListCopyT (·.ce.sum) l) ∧
    st'.reduceOp = st.reduceOp + statSum (· == .rbufLocalReduce) (·.count) l ∧
    st'.initOp = st.initOp + statSum (· == .bufInit) (·.count) l := by
  induction l with
  | nil => intro st; exact ⟨st, rfl, rfl, rfl, rfl⟩
  | cons a l ih =>
    intro st
    obtain ⟨s1, h1, h2, h3, h4⟩ := statStep_local es st a (hl a List.mem_cons_self)
    obtain ⟨s2, h5, h6, h7, h8⟩ := ih (fun b hb => hl b (List.mem_cons_of_mem _ hb)) s1
    refine ⟨s2, by rw [statGo, h1]; exact h5, ?_, ?_, ?_⟩
    · rw [h6, h2]; simp only [statSum_cons]; omega
    · rw [h7, h3]; simp only [statSum_cons]; omega
    · rw [h8, h4]; simp only [statSum_cons]; omega

/-- Bytes copied between memory and buffers, and the numbers of elements
reduced and initialised locally, are the sums over the actions doing it. -/
theorem C44_local_sums (es : Nat) (l : List SAct) (hl : ∀ a ∈ l, a.type ≠ .bufReserve) :
    ∃ st, calcStats es l = some st ∧
      st.byteBufCopy = statSum AT.isElemCopyT (fun a => a.count * es % 4294967296) l +
        statSum AT.isListCopyT (·.ce.sum) l ∧
      st.reduceOp = statSum (· == .rbufLocalReduce) (·.count) l ∧
      st.initOp = statSum (· == .bufInit) (·.count) l := by
  obtain ⟨st, h1, h2, h3, h4⟩ := statGo_local es l hl {}
  exact ⟨st, h1, by rw [h2]; simp, by rw [h3]; simp, by rw [h4]; simp⟩

example : (calcStats 8 [⟨.copyToBuf, 2, [16, 24]⟩, ⟨.packToBuf, 10, []⟩, ⟨.copyFromBuf, 1, [8]⟩, ⟨.rbufLocalReduce, 7, []⟩,
    ⟨.bufInit, 3, []⟩]).map (fun s => (s.byteBufCopy, s.reduceOp, s.initOp)) = some (128, 7, 3) := by decide +kernel

/-! ### MPI backend -/

theorem mpi_fold (es : Nat) (l : List SAct) : ∀ st,
    (l.foldl (mpiStep es) st).msgAsyncSend = st.msgAsyncSend + statSum (· == .mpiIsend) (fun _ => 1) l ∧
    (l.foldl (mpiStep es) st).elemSend = st.elemSend + statSum (· == .mpiIsend) (·.count) l ∧
    (l.foldl (mpiStep es) st).msgAsyncRecv = st.msgAsyncRecv + statSum (· == .mpiIrecv) (fun _ => 1) l ∧
    (l.foldl (mpiStep es) st).elemRecv = st.elemRecv + statSum (· == .mpiIrecv) (·.count) l ∧
    (l.foldl (mpiStep es) st).msgSend = st.msgSend ∧ (l.foldl (mpiStep es) st).msgRecv = st.msgRecv ∧
    (l.foldl (mpiStep es) st).elemReduce = st.elemReduce := by
  induction l with
  | nil => intro st; exact ⟨rfl, rfl, rfl, rfl, rfl, rfl, rfl⟩
  | cons a l ih =>
    intro st
    rw [List.foldl_cons]
    obtain ⟨h1, h2, h3, h4, h5, h6, h7⟩ := ih (mpiStep es st a)
    rw [h1, h2, h3, h4, h5, h6, h7]
    simp only [statSum_cons]
    obtain ⟨t, c, ce⟩ := a
    cases t
    case mpiIsend => exact ⟨Nat.add_assoc _ _ _, Nat.add_assoc _ _ _, by simp [mpiStep], by simp [mpiStep], rfl, rfl, rfl⟩
    case mpiIrecv => exact ⟨by simp [mpiStep], by simp [mpiStep], Nat.add_assoc _ _ _, Nat.add_assoc _ _ _, rfl, rfl, rfl⟩
    all_goals exact ⟨by simp [mpiStep], by simp [mpiStep], by simp [mpiStep], by simp [mpiStep], rfl, rfl, rfl⟩

/-- All sends and receives of an MPI sequence are counted: blocking and
non-blocking ones. -/
theorem C44_mpi_sums (es : Nat) (l : List SAct) (hl : ∀ a ∈ l, a.type ≠ .bufReserve) :
    ∃ st, mpiStats es l = some st ∧
      st.msgSend = statSum AT.isSendT (fun _ => 1) l ∧ st.msgAsyncSend = statSum (· == .mpiIsend) (fun _ => 1) l ∧
      st.elemSend = statSum (fun t => t.isSendT || t == .mpiIsend) (·.count) l ∧
      st.msgRecv = statSum AT.isRecvT (fun _ => 1) l ∧ st.msgAsyncRecv = statSum (· == .mpiIrecv) (fun _ => 1) l ∧
      st.elemRecv = statSum (fun t => t.isRecvT || t == .mpiIrecv) (·.count) l := by
  obtain ⟨st, h1, h2, h3, h4⟩ := statGo_core es l hl {}
  simp only [SStat.core, List.cons.injEq, and_true, Nat.zero_add] at h2
  obtain ⟨e1, e2, e3, e4, e5, e6, e7, e8, e9⟩ := h2
  obtain ⟨f1, f2, f3, f4, f5, f6, f7⟩ := mpi_fold es l st
  have or_sum : ∀ (p q : AT → Bool), (∀ t, p t = true → q t = false) → ∀ l : List SAct,
      statSum (fun t => p t || q t) (·.count) l = statSum p (·.count) l + statSum q (·.count) l := by
    intro p q hpq l
    induction l with
    | nil => rfl
    | cons a l ih =>
      rw [statSum_cons, statSum_cons, statSum_cons, ih]
      by_cases hp : p a.type = true
      · simp [hp, hpq _ hp]; omega
      · by_cases hq : q a.type = true <;> simp [hp, hq] <;> omega
  refine ⟨_, by unfold mpiStats calcStats; rw [h1]; rfl, ?_, ?_, ?_, ?_, ?_, ?_⟩
  · rw [f5, e1]
  · rw [f1, h3]; simp
  · rw [f2, e2, or_sum _ _ (by intro t; cases t <;> decide)]
  · rw [f6, e4]
  · rw [f3, h4]; simp
  · rw [f4, e5, or_sum _ _ (by intro t; cases t <;> decide)]

/-! ### Combining actions -/

variable {β : Type}

/-- Weight of an action before combining for keys with `w`. -/
def CAct.wt (w : CKey → Bool) (a : CAct β) : Nat :=
  match a.body with
  | .comm k _ _ c => if w k then c else 0
  | .other _ => 0

/-- Weight of an action after combining. -/
def CItem.wt (w : CKey → Bool) : CItem β → Nat
  | .act (.comm k _ _ c) => if w k then c else 0
  | .rcomm k _ c => if w k then c else 0
  | _ => 0

/-- Not combined with an earlier action. -/
def CAct.unseen (seen : List (Nat × CKey)) (a : CAct β) : Bool :=
  match a.body with
  | .comm k _ _ _ => decide ((a.round, k) ∉ seen)
  | .other _ => false

theorem combGo_wt (e : CEnv) (w : CKey → Bool) (l : List (CAct β)) : ∀ seen off,
    (((combGo e seen off l).1).map (fun x => x.2.wt w)).sum = ((l.filter (CAct.unseen seen)).map (CAct.wt w)).sum := by
  induction l with
  | nil => intro seen off; rfl
  | cons a l ih =>
    intro seen off
    obtain ⟨rd, body⟩ := a
    cases body with
    | other op =>
      simp only [combGo, List.map_cons, List.sum_cons, ih]
      simp [CItem.wt, CAct.unseen]
    | comm k s d c =>
      simp only [combGo]
      by_cases hs : (rd, k) ∈ seen
      · rw [if_pos hs, ih]
        simp [CAct.unseen, hs]
      · rw [if_neg hs]
        have hsplit : ∀ l : List (CAct β), ((l.filter (CAct.unseen seen)).map (CAct.wt w)).sum =
            ((l.filter (CAct.same rd k)).map (CAct.wt w)).sum + ((l.filter (CAct.unseen ((rd, k) :: seen))).map (CAct.wt w)).sum := by
          intro l
          induction l with
          | nil => rfl
          | cons b l ih =>
            obtain ⟨r', body⟩ := b
            cases body with
            | other op => simpa [CAct.unseen, CAct.same] using ih
            | comm k' s' d' c' =>
              by_cases h1 : r' = rd ∧ k' = k
              · obtain ⟨rfl, rfl⟩ := h1
                simp [CAct.unseen, CAct.same, hs] at ih ⊢
                omega
              · by_cases h2 : (r', k') ∈ seen
                · simp [CAct.unseen, CAct.same, h1, h2] at ih ⊢
                  omega
                · simp [CAct.unseen, CAct.same, h1, h2] at ih ⊢
                  omega
        have hsame : ∀ l : List (CAct β), ((l.filter (CAct.same rd k)).map (CAct.wt w)).sum =
            if w k then sumCount (l.filter (CAct.same rd k)) else 0 := by
          intro l
          induction l with
          | nil => simp [sumCount]
          | cons b l ih =>
            rw [List.filter_cons]
            split
            · rename_i hb
              rw [List.map_cons, List.sum_cons, ih]
              obtain ⟨r', body⟩ := b
              cases body with
              | other op => simp [CAct.same] at hb
              | comm k' s' d' c' =>
                simp only [CAct.same, decide_eq_true_eq] at hb
                obtain ⟨rfl, rfl⟩ := hb
                by_cases hw : w k' = true <;> simp [CAct.wt, hw, sumCount, CAct.count]
            · exact ih
        have hR : (((⟨rd, .comm k s d c⟩ :: l : List (CAct β)).filter (CAct.unseen seen)).map (CAct.wt w)).sum =
            (if w k then c else 0) + ((l.filter (CAct.unseen seen)).map (CAct.wt w)).sum := by
          have hu : CAct.unseen seen (⟨rd, .comm k s d c⟩ : CAct β) = true := by simp [CAct.unseen, hs]
          rw [List.filter_cons, if_pos hu, List.map_cons, List.sum_cons]
          rfl
        rw [hR, hsplit l, hsame l]
        generalize hg : l.filter (CAct.same rd k) = g
        split
        · have hem : ((emitGroup e rd k off ((⟨rd, .comm k s d c⟩ : CAct β) :: g)).map (fun x => x.2.wt w)).sum =
              if w k then c + sumCount g else 0 := by
            unfold emitGroup
            split <;> split <;> simp [CItem.wt, sumCount, CAct.count]
          rw [List.map_append, List.sum_append, hem, ih]
          split <;> omega
        · rename_i hlen
          have hnil : g = [] := by
            cases g with
            | nil => rfl
            | cons x g => simp at hlen
          rw [List.map_cons, List.sum_cons, ih, hnil]
          simp [CItem.wt, sumCount]

theorem key_types (k : CKey) (r : Bool) :
    (k.at r).isSendT = (match k with | .send _ => true | _ => false) ∧
    (k.at r).isRecvT = (match k with | .recv _ => true | _ => false) ∧
    (k.at r).isRedT = (match k with | .gred _ _ _ => true | .red _ _ => true | _ => false) := by
  cases k <;> cases r <;> exact ⟨rfl, rfl, rfl⟩

/-- Element counts of sequences before and after combining. -/
theorem combine_elems (e : CEnv) (f : MOp CKey β → SAct) (l : List (CAct β)) (n : Nat) (c : List (Nat × CItem β))
    (hc : combine e l = some (.new n c)) (p : AT → Bool) (w : CKey → Bool) (hp : ∀ k r, p (k.at r) = w k)
    (hcopy : p .copyToRBuf = false ∧ p .copyFromRBuf = false) :
    statSum p (·.count) (c.map (fun x => x.2.stat f)) = statSum p (·.count) (l.map (fun a => a.body.stat f)) := by
  have hcc := (combine_new hc).1
  -- split into combined actions and others
  have hold : ∀ l : List (CAct β), statSum p (·.count) (l.map (fun a => a.body.stat f)) = (l.map (CAct.wt w)).sum +
      ((l.filterMap (fun a => match a.body with | .other op => some (f op) | _ => none)).map
        (fun a => if p a.type then a.count else 0)).sum := by
    intro l
    induction l with
    | nil => rfl
    | cons a l ih =>
      rw [List.map_cons, statSum_cons, ih]
      obtain ⟨rd, body⟩ := a
      cases body with
      | comm k s d c' => simp [CBody.stat, hp, CAct.wt]; omega
      | other op => by_cases h : p (f op).type = true <;> simp [CBody.stat, CAct.wt, h] <;> omega
  have hnew : ∀ c : List (Nat × CItem β), statSum p (·.count) (c.map (fun x => x.2.stat f)) = (c.map (fun x => x.2.wt w)).sum +
      ((c.filterMap (fun x => match x.2 with | .act (.other op) => some (f op) | _ => none)).map
        (fun a => if p a.type then a.count else 0)).sum := by
    intro c
    induction c with
    | nil => rfl
    | cons a l ih =>
      rw [List.map_cons, statSum_cons, ih]
      obtain ⟨rd, item⟩ := a
      cases item with
      | act b =>
        cases b with
        | comm k s d c' => simp [CItem.stat, CBody.stat, hp, CItem.wt]; omega
        | other op => by_cases h : p (f op).type = true <;> simp [CItem.stat, CBody.stat, CItem.wt, h] <;> omega
      | copyTo ce => simp [CItem.stat, CItem.wt, hcopy]
      | copyFrom ce => simp [CItem.stat, CItem.wt, hcopy]
      | rcomm k off c' => simp [CItem.stat, hp, CItem.wt]; omega
  have hoth : ∀ (l : List (CAct β)) seen off,
      ((combGo e seen off l).1.filterMap (fun x => match x.2 with | .act (.other op) => some (f op) | _ => none)) =
      l.filterMap (fun a => match a.body with | .other op => some (f op) | _ => none) := by
    intro l
    induction l with
    | nil => intro seen off; rfl
    | cons a l ih =>
      intro seen off
      obtain ⟨rd, body⟩ := a
      cases body with
      | other op => simp [combGo, ih]
      | comm k s d c' =>
        simp only [combGo]
        split
        · rw [ih]; rfl
        · split
          · rw [List.filterMap_append, ih]
            have : (emitGroup e rd k off ((⟨rd, .comm k s d c'⟩ : CAct β) :: l.filter (CAct.same rd k))).filterMap
                (fun x => match x.2 with | .act (.other op) => some (f op) | _ => none) = [] := by
              unfold emitGroup
              split <;> split <;> rfl
            rw [this]
            rfl
          · rw [List.filterMap_cons, ih]
            rfl
  rw [hold, hnew, hcc, hoth, combGo_wt]
  congr 1
  have : ∀ l : List (CAct β), ((l.filter (CAct.unseen [])).map (CAct.wt w)).sum = (l.map (CAct.wt w)).sum := by
    intro l
    induction l with
    | nil => rfl
    | cons a l ih =>
      obtain ⟨rd, body⟩ := a
      cases body with
      | other op => simpa [CAct.unseen, CAct.wt] using ih
      | comm k s d c => simpa [CAct.unseen, CAct.wt] using ih
  exact this l

/-- Combining actions does not change the number of elements counted for sends,
receives and reductions.  `f` gives type and count of other actions, which must
not be buffer reservations. -/
theorem C44_combine (e : CEnv) (f : MOp CKey β → SAct) (hf : ∀ op, (f op).type ≠ .bufReserve)
    (l : List (CAct β)) (n : Nat) (c : List (Nat × CItem β)) (hc : combine e l = some (.new n c)) :
    ∃ st st', calcStats e.elemsize (l.map (fun a => a.body.stat f)) = some st ∧
      calcStats e.elemsize (c.map (fun x => x.2.stat f)) = some st' ∧
      st'.elemSend = st.elemSend ∧ st'.elemRecv = st.elemRecv ∧ st'.elemReduce = st.elemReduce := by
  have hb : ∀ b : CBody β, (b.stat f).type ≠ .bufReserve := by
    intro b
    cases b with
    | comm k s d c => cases k <;> simp [CBody.stat, CKey.at]
    | other op => exact hf op
  have hi : ∀ b : CItem β, (b.stat f).type ≠ .bufReserve := by
    intro b
    cases b with
    | act b => exact hb b
    | copyTo ce => simp [CItem.stat]
    | copyFrom ce => simp [CItem.stat]
    | rcomm k off c => cases k <;> simp [CItem.stat, CKey.at]
  obtain ⟨st, h0, _, h1, _, _, h2, _, _, h3, _⟩ := C44_sums e.elemsize (l.map (fun a => a.body.stat f)) (by
    intro a ha
    obtain ⟨b, _, rfl⟩ := List.mem_map.1 ha
    exact hb _)
  obtain ⟨st', g0, _, g1, _, _, g2, _, _, g3, _⟩ := C44_sums e.elemsize (c.map (fun x => x.2.stat f)) (by
    intro a ha
    obtain ⟨b, _, rfl⟩ := List.mem_map.1 ha
    exact hi _)
  refine ⟨st, st', h0, g0, ?_, ?_, ?_⟩
  · rw [h1, g1]
    exact combine_elems e f l n c hc _ _ (fun k r => (key_types k r).1) (by decide)
  · rw [h2, g2]
    exact combine_elems e f l n c hc _ _ (fun k r => (key_types k r).2.1) (by decide)
  · rw [h3, g3]
    exact combine_elems e f l n c hc _ _ (fun k r => (key_types k r).2.2) (by decide)

example : ∃ c, combine (β := Nat) ⟨0, fun _ => false, 4⟩
    [⟨0, .comm (.send 1) 100 0 3⟩, ⟨0, .comm (.recv 1) 0 300 1⟩, ⟨0, .comm (.send 1) 200 0 4⟩] = some (.new 7 c) ∧
    (calcStats 4 (c.map (fun x => x.2.stat (fun _ => ⟨.nop, 0, []⟩)))).map (·.elemSend) = some 7 :=
  ⟨_, rfl, rfl⟩

end Laik
