import Verif.Model.LayoutPack
/-!
# Piecewise transfer with pack and unpack (`src/backend-mpi.c` 472-520)
-/

namespace Laik.Lay

/-- Loop of `laik_mpi_exec_packAndSend`, src/backend-mpi.c 481-491: the messages
sent and the element count.  `cap` is `PACKBUFSIZE / elemsize`; a message is
the list of elements given to `MPI_Send`.  `fuel` bounds the rounds. -/
def packSendLoop {V : Type} (im : Impl) (m : LMap) (mem : Int → V) (b : Box) (cap : Nat) :
    Nat → Idx → Nat → Option (List (List V) × Nat)
  | 0, _, _ => none
  | fuel + 1, i, count =>
    match packI im m mem b i cap with
    | none => none
    | some (out, i') =>
      if ¬ out.length > 0 then none
      else if indexIsEqual m.lay.dims i' b.hi then some ([out], count + out.length)
      else
        match packSendLoop im m mem b cap fuel i' (count + out.length) with
        | none => none
        | some (msgs, c) => some (out :: msgs, c)

/-- `laik_mpi_exec_packAndSend`, src/backend-mpi.c 473-493: the messages sent,
in order.  `none`: failed assert. -/
def packAndSend {V : Type} (im : Impl) (m : LMap) (mem : Int → V) (b : Box) (cap slcSize : Nat) :
    Option (List (List V)) :=
  match packSendLoop im m mem b cap (slcSize + 1) b.lo 0 with
  | none => none
  | some (msgs, count) => if count = slcSize then some msgs else none

/-- Loop of `laik_mpi_exec_recvAndUnpack`, src/backend-mpi.c 506-518, on the
messages of the channel: memory, messages left, element count.  `none`: failed
assert, a message longer than the receive buffer (`MPI_Recv` fails), or no
message left (blocks).  `MPI_Get_count` is the number of elements in the
message. -/
def recvUnpackLoop {V : Type} (im : Impl) (m : LMap) (b : Box) (cap : Nat) :
    (Int → V) → Idx → Nat → List (List V) → Option ((Int → V) × List (List V) × Nat)
  | _, _, _, [] => none
  | mem, i, count, msg :: msgs =>
    if msg.length > cap then none
    else
      match unpackI im m mem b i msg with
      | none => none
      | some (mem', n, i') =>
        if ¬ msg.length = n then none
        else if indexIsEqual m.lay.dims i' b.hi then some (mem', msgs, count + n)
        else recvUnpackLoop im m b cap mem' i' (count + n) msgs

/-- `laik_mpi_exec_recvAndUnpack`, src/backend-mpi.c 496-520: memory and the
messages left in the channel. -/
def recvAndUnpack {V : Type} (im : Impl) (m : LMap) (mem : Int → V) (b : Box) (cap slcSize : Nat)
    (chan : List (List V)) : Option ((Int → V) × List (List V)) :=
  match recvUnpackLoop im m b cap mem b.lo 0 chan with
  | none => none
  | some (mem', rest, count) => if count = slcSize then some (mem', rest) else none

/-- A transfer in pieces: for each buffer size (in elements) the sender packs
one buffer and the receiver unpacks it (an empty buffer is not sent).  Result:
receiver memory and both positions.  `none`: a call fails, or the receiver
does not take the whole buffer. -/
def pieces {V : Type} (iS iR : Impl) (ms mr : LMap) (memS : Int → V) (b : Box) :
    List Nat → (Int → V) → Idx → Idx → Option ((Int → V) × Idx × Idx)
  | [], memR, i, j => some (memR, i, j)
  | cap :: caps, memR, i, j =>
    match packI iS ms memS b i cap with
    | none => none
    | some (out, i') =>
      if out.length = 0 then pieces iS iR ms mr memS b caps memR i' j
      else
        match unpackI iR mr memR b j out with
        | none => none
        | some (memR', n, j') =>
          if n = out.length then pieces iS iR ms mr memS b caps memR' i' j' else none

/-! ### Lemmas -/

theorem storeAll_append {V : Type} (as : List Int) : ∀ (mem : Int → V) (vs : List V) (as' : List Int)
    (vs' : List V), as.length = vs.length →
    storeAll (storeAll mem as vs) as' vs' = storeAll mem (as ++ as') (vs ++ vs') := by
  induction as with
  | nil =>
    intro mem vs as' vs' h
    have : vs = [] := by cases vs <;> simp_all
    subst this; simp [storeAll]
  | cons a as ih =>
    intro mem vs as' vs' h
    cases vs with
    | nil => simp at h
    | cons v vs =>
      simp only [storeAll, List.cons_append]
      exact ih _ _ _ _ (by simpa using h)

/-- Storing a shorter list of values only uses the first addresses. -/
theorem storeAll_take {V : Type} (as : List Int) : ∀ (mem : Int → V) (vs : List V),
    storeAll mem as vs = storeAll mem (as.take vs.length) vs := by
  induction as with
  | nil => intro mem vs; simp
  | cons a as ih =>
    intro mem vs
    cases vs with
    | nil => simp [storeAll]
    | cons v vs => simp only [storeAll, List.length_cons, List.take_succ_cons]; exact ih _ _

theorem storeAll_other {V : Type} (L : List Idx) (cell : Idx → Int) (val : Idx → V) :
    ∀ (mem : Int → V) (a : Int), (∀ p ∈ L, cell p ≠ a) →
      storeAll mem (L.map cell) (L.map val) a = mem a := by
  induction L with
  | nil => intro mem a _; simp [storeAll]
  | cons p L ih =>
    intro mem a h
    simp only [List.map_cons, storeAll]
    rw [ih _ a (fun q hq => h q (by simp [hq]))]
    have := h p (by simp)
    simp only [if_neg (Ne.symm this)]

theorem storeAll_at {V : Type} (L : List Idx) (cell : Idx → Int) (val : Idx → V)
    (hinj : ∀ p ∈ L, ∀ q ∈ L, cell p = cell q → val p = val q) :
    ∀ (mem : Int → V), ∀ p ∈ L, storeAll mem (L.map cell) (L.map val) (cell p) = val p := by
  induction L with
  | nil => intro mem p hp; simp at hp
  | cons r L ih =>
    intro mem p hp
    simp only [List.map_cons, storeAll]
    have ih' := ih (fun p hp q hq => hinj p (by simp [hp]) q (by simp [hq]))
    by_cases hc : ∃ q ∈ L, cell q = cell p
    · obtain ⟨q, hq, he⟩ := hc
      rw [← he, ih' _ q hq]
      exact hinj q (by simp [hq]) p hp he
    · have hno : ∀ q ∈ L, cell q ≠ cell p := fun q hq he => hc ⟨q, hq, he⟩
      rw [storeAll_other L cell val _ _ hno]
      have hpr : p = r := by
        rcases List.mem_cons.1 hp with h | h
        · exact h
        · exact absurd rfl (hno p h)
      subst hpr; simp

/-- Storing the values of all indexes of a box to their cells is `Moved`. -/
theorem moved_storeAll {V : Type} {m : LMap} (h : m.WF) {b : Box}
    (hb : SubsetOf m.lay.dims b m.required) (val : Idx → V)
    (hval : ∀ p, val (canon m.lay.dims p) = val p) (mem : Int → V) :
    Moved m.lay.dims b val m.cell mem
      (storeAll mem ((boxPts m.lay.dims b).map m.cell) ((boxPts m.lay.dims b).map val)) := by
  constructor
  · intro p hp
    have hin : canon m.lay.dims p ∈ boxPts m.lay.dims b :=
      (mem_boxPts _ _ _).2 ⟨(mem_canon _ _ _).2 hp, canon_canon _ _⟩
    have := storeAll_at (boxPts m.lay.dims b) m.cell val (by
      intro p hp q hq he
      obtain ⟨p1, p2⟩ := (mem_boxPts _ _ _).1 hp
      obtain ⟨q1, q2⟩ := (mem_boxPts _ _ _).1 hq
      have := cell_inj h (hb p p1) (hb q q1) he
      rw [p2, q2] at this; rw [this]) mem _ hin
    rw [cell_canon, hval] at this
    exact this
  · intro a ha
    apply storeAll_other
    intro p hp
    exact ha p ((mem_boxPts _ _ _).1 hp).1

theorem length_drop_take {α : Type} (S : List α) (n : Nat) :
    (S.take n).length + (S.drop n).length = S.length := by
  rw [← List.length_append, List.take_append_drop]

/-- Piecewise transfer from positions with the same remaining indexes. -/
theorem pieces_spec {V : Type} {iS iR : Impl} {ms mr : LMap} (hs : ms.WF) (hr : mr.WF)
    (hss : iS = .lex → ms.Strides0) (hrs : iR = .lex → mr.Strides0)
    (hd : mr.lay.dims = ms.lay.dims) (memS : Int → V) {b : Box}
    (hbs : SubsetOf ms.lay.dims b ms.required) (hbr : SubsetOf ms.lay.dims b mr.required) :
    ∀ (caps : List Nat) (memR : Int → V) (i j : Idx) (S : List Idx),
      At ms.lay.dims b i S → At ms.lay.dims b j S →
      ∃ i' j', pieces iS iR ms mr memS b caps memR i j =
          some (storeAll memR ((S.take caps.sum).map mr.cell)
            ((S.take caps.sum).map fun p => memS (ms.cell p)), i', j') ∧
        At ms.lay.dims b i' (S.drop caps.sum) ∧ At ms.lay.dims b j' (S.drop caps.sum) := by
  intro caps
  induction caps with
  | nil =>
    intro memR i j S hi hj
    exact ⟨i, j, by simp [pieces, storeAll], by simpa using hi, by simpa using hj⟩
  | cons cap caps ih =>
    intro memR i j S hi hj
    obtain ⟨i', hp, hi'⟩ := pack_step iS hs hss memS hbs hi cap
    simp only [pieces, hp]
    have e1 : ∀ f : Idx → V, (S.take (cap + caps.sum)).map f =
        (S.take cap).map f ++ ((S.drop cap).take caps.sum).map f := by
      intro f; rw [← List.map_append, List.take_add]
    have e2 : ∀ f : Idx → Int, (S.take (cap + caps.sum)).map f =
        (S.take cap).map f ++ ((S.drop cap).take caps.sum).map f := by
      intro f; rw [← List.map_append, List.take_add]
    by_cases h0 : S.take cap = []
    · have hdrop : S.drop cap = S := by
        have := List.take_append_drop cap S
        rw [h0] at this; simpa using this
      simp only [h0, List.map_nil, List.length_nil, if_true]
      rw [hdrop] at hi'
      obtain ⟨i'', j'', g1, g2, g3⟩ := ih memR i' j S hi' hj
      refine ⟨i'', j'', ?_, ?_, ?_⟩
      · rw [g1]
        simp only [List.sum_cons]
        rw [e1, e2, h0, hdrop]; simp
      · simp only [List.sum_cons]; rw [← List.drop_drop, hdrop]; exact g2
      · simp only [List.sum_cons]; rw [← List.drop_drop, hdrop]; exact g3
    · have hlen : (S.take cap).length ≠ 0 := by
        intro h; exact h0 (List.length_eq_zero_iff.1 h)
      rw [if_neg (by simpa using hlen)]
      have hSne : S ≠ [] := by intro h; rw [h] at h0; simp at h0
      rw [← hd] at hj hbr
      obtain ⟨j', hu, hj'⟩ := unpack_step iR hr hrs memR hbr hj
        ((S.take cap).map fun p => memS (ms.cell p)) (by simpa using h0) hSne
      rw [hu]
      simp only [List.length_map, List.length_take]
      have hmin : min (min cap S.length) S.length = min cap S.length := by omega
      rw [hmin]
      simp only [if_true]
      have hdrop : S.drop (min cap S.length) = S.drop cap := by
        rcases Nat.le_total cap S.length with hle | hle
        · rw [Nat.min_eq_left hle]
        · rw [Nat.min_eq_right hle, List.drop_eq_nil_of_le hle]; simp
      rw [List.length_map, List.length_take, hdrop, hd] at hj'
      obtain ⟨i'', j'', g1, g2, g3⟩ := ih (storeAll memR (S.map mr.cell)
        ((S.take cap).map fun p => memS (ms.cell p))) i' j' (S.drop cap) hi' hj'
      refine ⟨i'', j'', ?_, ?_, ?_⟩
      · rw [g1]
        simp only [List.sum_cons]
        rw [e1, e2, ← storeAll_append _ _ _ _ _ (by simp)]
        rw [storeAll_take (S.map mr.cell)]
        simp only [List.length_map, List.length_take, ← List.map_take]
        congr 3
        have : S.take (min cap S.length) = S.take cap := by
          rcases Nat.le_total cap S.length with hle | hle
          · rw [Nat.min_eq_left hle]
          · rw [Nat.min_eq_right hle, List.take_of_length_le hle]; simp
        rw [this]
      · simp only [List.sum_cons]; rw [← List.drop_drop]; exact g2
      · simp only [List.sum_cons]; rw [← List.drop_drop]; exact g3

theorem packSendLoop_spec {V : Type} {im : Impl} {m : LMap} (h : m.WF)
    (hst : im = .lex → m.Strides0) (mem : Int → V) {b : Box}
    (hb : SubsetOf m.lay.dims b m.required) (cap : Nat) (hcap : 0 < cap) :
    ∀ (fuel : Nat) (i : Idx) (S : List Idx) (count : Nat), At m.lay.dims b i S → S ≠ [] →
      S.length < fuel →
      ∃ msgs, packSendLoop im m mem b cap fuel i count = some (msgs, count + S.length) ∧
        msgs ≠ [] ∧ (∀ g ∈ msgs, g ≠ [] ∧ g.length ≤ cap) ∧
        msgs.flatten = S.map fun p => mem (m.cell p) := by
  intro fuel
  induction fuel with
  | zero => intro i S count _ _ hf; omega
  | succ fuel ih =>
    intro i S count hi hS hf
    obtain ⟨i', hp, hi'⟩ := pack_step im h hst mem hb hi cap
    have hlen : (S.take cap).length = min cap S.length := List.length_take
    have hSl : 0 < S.length := List.length_pos_iff.2 hS
    unfold packSendLoop
    simp only [hp, List.length_map, hlen]
    rw [if_neg (by omega)]
    have hend := at_end hi'
    by_cases hd : S.drop cap = []
    · rw [if_pos (hend.2 hd)]
      have hle : S.length ≤ cap := by simpa using hd
      refine ⟨[(S.take cap).map fun p => mem (m.cell p)], ?_, by simp, ?_, ?_⟩
      · rw [Nat.min_eq_right hle]
      · intro g hg
        simp only [List.mem_singleton] at hg
        subst hg
        refine ⟨?_, by simp; omega⟩
        rw [List.take_of_length_le hle]; simpa using hS
      · rw [List.take_of_length_le hle]; simp
    · rw [if_neg (fun he => hd (hend.1 he))]
      have hlt : cap < S.length := by
        rcases Nat.lt_or_ge cap S.length with g | g
        · exact g
        · exact absurd (List.drop_eq_nil_of_le g) hd
      obtain ⟨msgs, g1, g2, g3, g4⟩ := ih i' (S.drop cap) (count + min cap S.length) hi' hd
        (by rw [List.length_drop]; omega)
      rw [g1]
      refine ⟨((S.take cap).map fun p => mem (m.cell p)) :: msgs, ?_, by simp, ?_, ?_⟩
      · simp only [List.length_drop]
        rw [show count + min cap S.length + (S.length - cap) = count + S.length by omega]
      · intro g hg
        rcases List.mem_cons.1 hg with hg | hg
        · subst hg
          refine ⟨?_, by simp; omega⟩
          intro hn
          have : (S.take cap).length = 0 := by
            have := congrArg List.length hn; simpa using this
          omega
        · exact g3 g hg
      · rw [List.flatten_cons, g4, ← List.map_append, List.take_append_drop]

theorem recvUnpackLoop_spec {V : Type} {im : Impl} {m : LMap} (h : m.WF)
    (hst : im = .lex → m.Strides0) {b : Box} (hb : SubsetOf m.lay.dims b m.required) (cap : Nat)
    (rest : List (List V)) :
    ∀ (msgs : List (List V)) (mem : Int → V) (j : Idx) (S : List Idx) (count : Nat),
      At m.lay.dims b j S → msgs ≠ [] → (∀ g ∈ msgs, g ≠ [] ∧ g.length ≤ cap) →
      msgs.flatten.length = S.length →
      recvUnpackLoop im m b cap mem j count (msgs ++ rest) =
        some (storeAll mem (S.map m.cell) msgs.flatten, rest, count + S.length) := by
  intro msgs
  induction msgs with
  | nil => intro mem j S count _ hne; exact absurd rfl hne
  | cons g msgs ih =>
    intro mem j S count hj _ hg hlen
    obtain ⟨g1, g2⟩ := hg g (by simp)
    simp only [List.flatten_cons, List.length_append] at hlen
    have hgl : 0 < g.length := List.length_pos_iff.2 g1
    have hS : S ≠ [] := by intro hn; rw [hn] at hlen; simp at hlen; exact g1 hlen.1
    obtain ⟨j', hu, hj'⟩ := unpack_step im h hst mem hb hj g g1 hS
    simp only [List.cons_append, recvUnpackLoop]
    rw [if_neg (by omega), hu]
    simp only
    have hmin : min g.length S.length = g.length := by omega
    rw [hmin]
    simp only [not_true_eq_false, if_false]
    have hend := at_end hj'
    by_cases hd : S.drop g.length = []
    · rw [if_pos (hend.2 hd)]
      have hle : S.length ≤ g.length := by simpa using hd
      have hmsgs : msgs = [] := by
        cases msgs with
        | nil => rfl
        | cons q qs =>
          have := (hg q (by simp)).1
          have := List.length_pos_iff.2 this
          simp only [List.flatten_cons, List.length_append] at hlen
          omega
      subst hmsgs
      have e : g.length = S.length := by omega
      simp [e]
    · rw [if_neg (fun he => hd (hend.1 he))]
      have hne : msgs ≠ [] := by
        intro hn
        subst hn
        simp at hlen
        exact hd (List.drop_eq_nil_of_le (by omega))
      rw [ih _ j' (S.drop g.length) (count + g.length) hj' hne
        (fun q hq => hg q (by simp [hq])) (by rw [List.length_drop]; omega)]
      rw [storeAll_take (S.map m.cell) mem g]
      rw [storeAll_append _ _ _ _ _ (by simp; omega)]
      simp only [List.length_drop, List.flatten_cons]
      rw [← List.map_take, ← List.map_append, List.take_append_drop]
      rw [show count + g.length + (S.length - g.length) = count + S.length by omega]

end Laik.Lay
