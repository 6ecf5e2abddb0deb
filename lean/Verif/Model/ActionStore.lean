import Verif.Spec.ActionStore
/-!
# Storage of action sequences as bytes
-/

namespace Laik.As

/-- `Laik_ActionSeq` (include/laik/action-internal.h 199-250), the parts for actions:
`act` are the `bytesUsed` bytes at `action`, `tmp` the `newBytesAlloc` bytes at
`newAction`. -/
structure Seq where
  act : List Nat
  count : Nat
  rounds : Nat
  tmp : List Nat
  used : Nat
  newCount : Nat
  newRounds : Nat

/-- `laik_aseq_new`, src/action.c 31-78. -/
def Seq.empty : Seq := ⟨[], 0, 0, [], 0, 0, 0⟩

/-- Writes bytes into a buffer.  `none`: writes after its end. -/
def setBytes (buf : List Nat) (off : Nat) (bs : List Nat) : Option (List Nat) :=
  if off + bs.length ≤ buf.length then some (buf.take off ++ bs ++ buf.drop (off + bs.length)) else none

/-- Reads bytes from a buffer.  `none`: reads after its end. -/
def getBytes (buf : List Nat) (off n : Nat) : Option (List Nat) :=
  if off + n ≤ buf.length then some ((buf.drop off).take n) else none

/-- `realloc` in `laik_aseq_addAction`, src/action.c 135-143: `junk` are the bytes of
new memory.  Sizes are not bounded here; with `size_t`, they are for all buffers which
fit into memory. -/
def Seq.room (junk : Nat → Nat) (s : Seq) (size : Nat) : List Nat :=
  if s.used + size > s.tmp.length then
    s.tmp ++ (List.range ((s.tmp.length + size + 50) * 2 - s.tmp.length)).map junk
  else s.tmp

/-- `laik_aseq_addAction`, src/action.c 129-162: the sequence and the offset of the new
action.  `none`: failed assert or write outside of the buffer.  Header as in
include/laik/action-internal.h 42-48. -/
def Seq.addAction (junk : Nat → Nat) (s : Seq) (size type round tid : Nat) : Option (Seq × Nat) :=
  if ¬ round < 255 then none
  else if ¬ (type < 256 ∧ size < 256 ∧ round < 256 ∧ tid < 128) then none
  else
    match setBytes (s.room junk size) s.used [type % 256, size % 256, round % 256, tid % 128] with
    | none => none
    | some tmp =>
      some ({ s with tmp := tmp, used := s.used + size, newCount := s.newCount + 1,
                     newRounds := if s.newRounds ≤ round then round + 1 else s.newRounds }, s.used)

/-- A new action with parameters written behind its header: `laik_aseq_addBufReserve`,
`laik_aseq_addRBufSend` and all others, src/action.c 202-762.  The order in which
fields and type are written is not modelled; fields which are not written are any
bytes. -/
def Seq.add (junk : Nat → Nat) (s : Seq) (type round tid : Nat) (par : List Nat) : Option Seq :=
  match s.addAction junk (4 + par.length) type round tid with
  | none => none
  | some (s', off) => (setBytes s'.tmp (off + 4) par).map fun tmp => { s' with tmp := tmp }

/-- Reads the action at an offset.  `none`: reads after the end of the buffer, or
negative number of bytes for parameters. -/
def readAct (buf : List Nat) (off : Nat) : Option Act :=
  match getBytes buf off 4 with
  | some [t, l, r, i] =>
    if l < 4 then none
    else (getBytes buf (off + 4) (l - 4)).map fun p => ⟨t, r, i % 128, decide (128 ≤ i), p⟩
  | _ => none

/-- `nextAction`, include/laik/action-internal.h 51. -/
def nextAct (buf : List Nat) (off : Nat) : Option Nat :=
  match getBytes buf (off + 1) 1 with
  | some [l] => some (off + l)
  | _ => none

/-- Offset of action `k`: `nextAction` done `k` times. -/
def offAt (buf : List Nat) : Nat → Nat → Option Nat
  | off, 0 => some off
  | off, k + 1 => (nextAct buf off).bind fun o => offAt buf o k

/-- Pointer to action `k` of the active sequence in a loop over it. -/
def Seq.ptr (s : Seq) (k : Nat) : Option Nat := if k < s.count then offAt s.act 0 k else none

/-- `laik_aseq_add`, src/action.c 1060-1076, for an action of the active sequence. -/
def Seq.copy (junk : Nat → Nat) (s : Seq) (k : Nat) (round : Option Nat) : Option Seq :=
  match s.ptr k with
  | none => none
  | some off =>
    match readAct s.act off with
    | none => none
    | some a =>
      if a.type = 2 then some s
      else
        match s.addAction junk (4 + a.par.length) a.type (round.getD a.round) a.tid with
        | none => none
        | some (s', o) => (setBytes s'.tmp (o + 4) a.par).map fun tmp => { s' with tmp := tmp }

/-- Changes of an action in place: type, mark and parameters, as done in
`laik_aseq_allocBuffer` (src/action.c 871-931) and `laik_aseq_combineActions`
(1180-1570). -/
def Seq.modify (s : Seq) (k type : Nat) (mark : Bool) (par : List Nat) : Option Seq :=
  match s.ptr k with
  | none => none
  | some off =>
    match readAct s.act off with
    | none => none
    | some a =>
      if ¬ (type < 256 ∧ par.length = a.par.length) then none
      else
        match setBytes s.act off [type] with
        | none => none
        | some b1 =>
          match setBytes b1 (off + 3) [a.tid + if mark then 128 else 0] with
          | none => none
          | some b2 => (setBytes b2 (off + 4) par).map fun b3 => { s with act := b3 }

/-- `laik_aseq_discardNewActions`, src/action.c 165-171. -/
def Seq.discard (s : Seq) : Seq := { s with used := 0, newCount := 0, newRounds := 0 }

/-- `laik_aseq_activateNewActions`, src/action.c 174-187. -/
def Seq.activate (s : Seq) : Option Seq :=
  (getBytes s.tmp 0 s.used).map fun b => Seq.discard { s with act := b, count := s.newCount, rounds := s.newRounds }

/-- `laik_aseq_freeTempSpace`, src/action.c 190-198. -/
def Seq.freeTemp (s : Seq) : Option Seq := if s.newCount = 0 then some { s with tmp := [] } else none

def Seq.step (junk : Nat → Nat) (s : Seq) : Op → Option Seq
  | .add t r i p => s.add junk t r i p
  | .copy k r => s.copy junk k r
  | .modify k t m p => s.modify k t m p
  | .activate => s.activate
  | .discard => some s.discard
  | .freeTemp => s.freeTemp

/-- Each operation may get other bytes in new memory. -/
def Seq.run : Seq → List ((Nat → Nat) × Op) → Option Seq
  | s, [] => some s
  | s, o :: os => (s.step o.1 o.2).bind fun s' => s'.run os

/-- Loop over the active sequence, as in all transformations: actions seen, and offset
after the loop. -/
def walkFrom (buf : List Nat) : Nat → Nat → Option (List Act × Nat)
  | 0, off => some ([], off)
  | n + 1, off =>
    match readAct buf off, nextAct buf off with
    | some a, some o => (walkFrom buf n o).map fun r => (a :: r.1, r.2)
    | _, _ => none

def Seq.walk (s : Seq) : Option (List Act × Nat) := walkFrom s.act s.count 0

/-! ### Encoding -/

def Act.bytes (a : Act) : List Nat := [a.type, 4 + a.par.length, a.round, a.tid + if a.mark then 128 else 0] ++ a.par

def enc (l : List Act) : List Nat := l.flatMap Act.bytes

theorem enc_cons (a : Act) (l : List Act) : enc (a :: l) = a.bytes ++ enc l := List.flatMap_cons
theorem enc_append (l l' : List Act) : enc (l ++ l') = enc l ++ enc l' := by simp [enc]
theorem bytes_length (a : Act) : a.bytes.length = 4 + a.par.length := by simp [Act.bytes]; omega

theorem getBytes_mid (A B C : List Nat) (n m : Nat) (hn : n = A.length) (hm : m = B.length) : getBytes (A ++ (B ++ C)) n m = some B := by
  subst hn hm
  unfold getBytes
  rw [if_pos (by simp), List.drop_left, List.take_left]

theorem setBytes_mid (A B B' C : List Nat) (n : Nat) (hn : n = A.length) (hl : B'.length = B.length) :
    setBytes (A ++ (B ++ C)) n B' = some (A ++ (B' ++ C)) := by
  subst hn
  unfold setBytes
  rw [if_pos (by simp; omega), List.take_left]
  congr 1
  rw [List.append_assoc, hl, List.drop_append]
  simp [List.drop_eq_nil_of_le]

theorem readAct_mid {a : Act} (ha : a.tid < 128) (A C : List Nat) (n : Nat) (hn : n = A.length) : readAct (A ++ (a.bytes ++ C)) n = some a := by
  unfold readAct
  have h1 : getBytes (A ++ (a.bytes ++ C)) n 4 = some [a.type, 4 + a.par.length, a.round, a.tid + if a.mark then 128 else 0] := by
    have := getBytes_mid A [a.type, 4 + a.par.length, a.round, a.tid + if a.mark then 128 else 0] (a.par ++ C) n 4 hn rfl
    simpa [Act.bytes] using this
  have h2 : getBytes (A ++ (a.bytes ++ C)) (n + 4) a.par.length = some a.par := by
    have := getBytes_mid (A ++ [a.type, 4 + a.par.length, a.round, a.tid + if a.mark then 128 else 0]) a.par C (n + 4) a.par.length (by simp [hn]) rfl
    simpa [Act.bytes] using this
  rw [h1]
  simp only
  rw [if_neg (by omega), Nat.add_sub_cancel_left, h2, Option.map_some]
  obtain ⟨t, r, i, m, p⟩ := a
  have ha : i < 128 := ha
  cases m
  · simp [Nat.mod_eq_of_lt ha]; omega
  · simp [Nat.mod_eq_of_lt ha]

theorem nextAct_mid (a : Act) (A C : List Nat) (n : Nat) (hn : n = A.length) : nextAct (A ++ (a.bytes ++ C)) n = some (n + a.bytes.length) := by
  unfold nextAct
  have h1 : getBytes (A ++ (a.bytes ++ C)) (n + 1) 1 = some [4 + a.par.length] := by
    have := getBytes_mid (A ++ [a.type]) [4 + a.par.length] ([a.round, a.tid + if a.mark then 128 else 0] ++ a.par ++ C) (n + 1) 1 (by simp [hn]) rfl
    simpa [Act.bytes] using this
  rw [h1, bytes_length]

theorem walkFrom_enc : ∀ (l : List Act) (A : List Nat), (∀ a ∈ l, a.tid < 128) →
    walkFrom (A ++ enc l) l.length A.length = some (l, A.length + (enc l).length) := by
  intro l
  induction l with
  | nil => intro A _; simp [walkFrom, enc]
  | cons a l ih =>
    intro A h
    rw [enc_cons, List.length_cons, walkFrom, readAct_mid (h a List.mem_cons_self) A _ _ rfl, nextAct_mid a A _ _ rfl]
    simp only
    have := ih (A ++ a.bytes) (fun b hb => h b (List.mem_cons_of_mem _ hb))
    rw [List.append_assoc, List.length_append] at this
    rw [this]
    simp [Nat.add_assoc]

theorem offAt_enc : ∀ (l : List Act) (A : List Nat) (k : Nat) (C : List Nat), k ≤ l.length →
    offAt (A ++ (enc l ++ C)) A.length k = some (A.length + (enc (l.take k)).length) := by
  intro l
  induction l with
  | nil =>
    intro A k C h
    have : k = 0 := by simpa using h
    subst this
    simp [offAt, enc]
  | cons a l ih =>
    intro A k C h
    cases k with
    | zero => simp [offAt, enc]
    | succ k =>
      rw [offAt, enc_cons, List.append_assoc, nextAct_mid a A _ _ rfl, Option.bind_some]
      have := ih (A ++ a.bytes) k C (by simpa using h)
      rw [List.append_assoc, List.length_append] at this
      rw [this]
      simp [enc_cons, Nat.add_assoc]

/-- Number of rounds. -/
def roundsOf (l : List Act) : Nat := l.foldl (fun n a => if n ≤ a.round then a.round + 1 else n) 0

theorem roundsOf_append (l : List Act) (a : Act) : roundsOf (l ++ [a]) = if roundsOf l ≤ a.round then a.round + 1 else roundsOf l := by
  unfold roundsOf
  rw [List.foldl_append]
  rfl

/-- Bytes of the sequences `p`. -/
structure Holds (s : Seq) (p : Lists) : Prop where
  act : s.act = enc p.act
  count : s.count = p.act.length
  rounds : s.rounds = roundsOf p.act
  used : s.used = (enc p.new).length
  tmp : ∃ R, s.tmp = enc p.new ++ R
  newCount : s.newCount = p.new.length
  newRounds : s.newRounds = roundsOf p.new
  okAct : ∀ a ∈ p.act, a.Fits
  okNew : ∀ a ∈ p.new, a.Fits

theorem holds_empty : Holds Seq.empty ⟨[], []⟩ :=
  ⟨rfl, rfl, rfl, rfl, ⟨[], rfl⟩, rfl, rfl, fun _ h => (by cases h), fun _ h => (by cases h)⟩

theorem room_eq {s : Seq} {p : Lists} (h : Holds s p) (junk : Nat → Nat) (size : Nat) :
    ∃ R, s.room junk size = enc p.new ++ R ∧ size ≤ R.length := by
  obtain ⟨R, hR⟩ := h.tmp
  unfold Seq.room
  split
  · refine ⟨R ++ (List.range ((s.tmp.length + size + 50) * 2 - s.tmp.length)).map junk, by rw [hR, List.append_assoc], ?_⟩
    simp
    omega
  · rename_i hc
    refine ⟨R, hR, ?_⟩
    rw [h.used, hR, List.length_append] at hc
    omega

theorem append_ok {s : Seq} {p : Lists} (h : Holds s p) (junk : Nat → Nat) {t r i : Nat} {par : List Nat} (ha : (⟨t, r, i, false, par⟩ : Act).Fits) :
    ∃ s', ((match s.addAction junk (4 + par.length) t r i with
      | none => none
      | some (s', off) => (setBytes s'.tmp (off + 4) par).map fun tmp => { s' with tmp := tmp }) = some s') ∧
      Holds s' { p with new := p.new ++ [⟨t, r, i, false, par⟩] } := by
  obtain ⟨h1, h2, h3, h4⟩ := ha
  simp only at h1 h2 h3 h4
  obtain ⟨R, hR, hl⟩ := room_eq h junk (4 + par.length)
  obtain ⟨H, R1, rfl, hH⟩ : ∃ H R1, R = H ++ R1 ∧ H.length = 4 := ⟨R.take 4, R.drop 4, (List.take_append_drop 4 R).symm, by simp; omega⟩
  obtain ⟨P, R2, rfl, hP⟩ : ∃ P R2, R1 = P ++ R2 ∧ P.length = par.length :=
    ⟨R1.take par.length, R1.drop par.length, (List.take_append_drop _ R1).symm, by simp at hl ⊢; omega⟩
  unfold Seq.addAction
  rw [if_neg (by omega), if_neg (by omega), hR, setBytes_mid _ H _ _ _ h.used (by simp [hH])]
  simp only
  have e := setBytes_mid (enc p.new ++ [t % 256, (4 + par.length) % 256, r % 256, i % 128]) P par R2 (s.used + 4) (by simp [h.used]) hP.symm
  rw [List.append_assoc] at e
  rw [e]
  refine ⟨_, rfl, h.act, h.count, h.rounds, ?_, ⟨R2, ?_⟩, ?_, ?_, h.okAct, ?_⟩
  · rw [enc_append, List.length_append, ← h.used, enc_cons, List.length_append, bytes_length]
    rfl
  · rw [enc_append]
    simp [enc, Act.bytes, Nat.mod_eq_of_lt h1, Nat.mod_eq_of_lt h4, Nat.mod_eq_of_lt (show 4 + par.length < 256 by omega),
      Nat.mod_eq_of_lt (show r < 256 by omega)]
  · simp [h.newCount]
  · simp only
    rw [roundsOf_append, h.newRounds]
  · intro a hm
    rcases List.mem_append.1 hm with hm | hm
    · exact h.okNew a hm
    · rw [List.mem_singleton.1 hm]
      exact ⟨h1, h2, h3, h4⟩

theorem step_add {s : Seq} {p : Lists} (h : Holds s p) (junk : Nat → Nat) (t r i : Nat) (par : List Nat) :
    (∀ p', p.step (.add t r i par) = some p' → ∃ s', s.add junk t r i par = some s' ∧ Holds s' p') ∧
    (p.step (.add t r i par) = none → s.add junk t r i par = none) := by
  unfold Lists.step
  simp only
  split
  · rename_i hf
    refine ⟨?_, nofun⟩
    intro p' hp'
    cases hp'
    exact append_ok h junk hf
  · rename_i hf
    refine ⟨nofun, fun _ => ?_⟩
    unfold Seq.add Seq.addAction
    by_cases h1 : r < 255
    · rw [if_neg (by omega), if_pos]
      intro hc
      exact hf ⟨hc.1, by simp only; omega, h1, hc.2.2.2⟩
    · rw [if_pos h1]

theorem ptr_eq {s : Seq} {p : Lists} (h : Holds s p) (k : Nat) :
    s.ptr k = if k < p.act.length then some (enc (p.act.take k)).length else none := by
  unfold Seq.ptr
  rw [h.count]
  split
  · rename_i hk
    have := offAt_enc p.act [] k [] (by omega)
    simp only [List.nil_append, List.append_nil, List.length_nil, Nat.zero_add] at this
    rw [h.act, this]
  · rfl

theorem act_split {s : Seq} {p : Lists} (h : Holds s p) {k : Nat} {a : Act} (ha : p.act[k]? = some a) :
    s.act = enc (p.act.take k) ++ (a.bytes ++ enc (p.act.drop (k + 1))) := by
  obtain ⟨hk, e⟩ := List.getElem?_eq_some_iff.1 ha
  rw [h.act, ← enc_cons, ← enc_append]
  congr 1
  rw [← e, List.getElem_cons_drop, List.take_append_drop]

theorem read_eq {s : Seq} {p : Lists} (h : Holds s p) {k : Nat} {a : Act} (ha : p.act[k]? = some a) :
    s.ptr k = some (enc (p.act.take k)).length ∧ readAct s.act (enc (p.act.take k)).length = some a := by
  have hk := (List.getElem?_eq_some_iff.1 ha).1
  refine ⟨by rw [ptr_eq h, if_pos hk], ?_⟩
  rw [act_split h ha]
  exact readAct_mid (h.okAct a (List.mem_of_getElem? ha)).2.2.2 _ _ _ rfl

theorem step_copy {s : Seq} {p : Lists} (h : Holds s p) (junk : Nat → Nat) (k : Nat) (r : Option Nat) :
    (∀ p', p.step (.copy k r) = some p' → ∃ s', s.copy junk k r = some s' ∧ Holds s' p') ∧
    (p.step (.copy k r) = none → s.copy junk k r = none) := by
  unfold Lists.step Seq.copy
  simp only
  cases ha : p.act[k]? with
  | none =>
    refine ⟨nofun, fun _ => ?_⟩
    rw [ptr_eq h, if_neg (by rw [List.getElem?_eq_none_iff] at ha; omega)]
  | some a =>
    obtain ⟨e1, e2⟩ := read_eq h ha
    rw [e1]
    simp only
    rw [e2]
    simp only
    have hf := h.okAct a (List.mem_of_getElem? ha)
    by_cases h2 : a.type = 2
    · rw [if_pos h2, if_pos h2]
      refine ⟨?_, nofun⟩
      intro p' hp'
      cases hp'
      exact ⟨s, rfl, h⟩
    · rw [if_neg h2, if_neg h2]
      split
      · rename_i hr
        refine ⟨?_, nofun⟩
        intro p' hp'
        cases hp'
        exact append_ok h junk ⟨hf.1, hf.2.1, hr, hf.2.2.2⟩
      · rename_i hr
        refine ⟨nofun, fun _ => ?_⟩
        unfold Seq.addAction
        rw [if_pos hr]

theorem roundsOf_set (l : List Act) (k : Nat) (a b : Act) (h : l[k]? = some a) (hr : b.round = a.round) : roundsOf (l.set k b) = roundsOf l := by
  unfold roundsOf
  generalize 0 = n
  induction l generalizing k n with
  | nil => rfl
  | cons x l ih =>
    cases k with
    | zero =>
      cases h
      simp [hr]
    | succ k =>
      simp only [List.set_cons_succ, List.foldl_cons]
      exact ih k h _

theorem step_modify {s : Seq} {p : Lists} (h : Holds s p) (k t : Nat) (m : Bool) (par : List Nat) :
    (∀ p', p.step (.modify k t m par) = some p' → ∃ s', s.modify k t m par = some s' ∧ Holds s' p') ∧
    (p.step (.modify k t m par) = none → s.modify k t m par = none) := by
  unfold Lists.step Seq.modify
  simp only
  cases ha : p.act[k]? with
  | none =>
    refine ⟨nofun, fun _ => ?_⟩
    rw [ptr_eq h, if_neg (by rw [List.getElem?_eq_none_iff] at ha; omega)]
  | some a =>
    obtain ⟨e1, e2⟩ := read_eq h ha
    have hf := h.okAct a (List.mem_of_getElem? ha)
    have hk := (List.getElem?_eq_some_iff.1 ha).1
    rw [e1]
    simp only
    rw [e2]
    simp only
    by_cases hc : t < 256 ∧ par.length = a.par.length
    · rw [if_pos hc, if_neg (show ¬ ¬ (t < 256 ∧ par.length = a.par.length) from fun q => q hc)]
      refine ⟨?_, nofun⟩
      intro p' hp'
      cases hp'
      have q0 := act_split h ha
      generalize hA : enc (p.act.take k) = A at q0 ⊢
      generalize hC : enc (p.act.drop (k + 1)) = C at q0
      have q1 : setBytes s.act A.length [t] =
          some (A ++ ([t] ++ ([4 + a.par.length, a.round, a.tid + if a.mark then 128 else 0] ++ a.par ++ C))) := by
        rw [q0]
        exact setBytes_mid A [a.type] [t] ([4 + a.par.length, a.round, a.tid + if a.mark then 128 else 0] ++ a.par ++ C) _ rfl rfl
      have q2 : setBytes (A ++ ([t] ++ ([4 + a.par.length, a.round, a.tid + if a.mark then 128 else 0] ++ a.par ++ C))) (A.length + 3)
          [a.tid + if m then 128 else 0] =
          some ((A ++ [t, 4 + a.par.length, a.round]) ++ ([a.tid + if m then 128 else 0] ++ (a.par ++ C))) := by
        have := setBytes_mid (A ++ [t, 4 + a.par.length, a.round]) [a.tid + if a.mark then 128 else 0] [a.tid + if m then 128 else 0]
          (a.par ++ C) (A.length + 3) (by simp) rfl
        simpa using this
      have q3 : setBytes ((A ++ [t, 4 + a.par.length, a.round]) ++ ([a.tid + if m then 128 else 0] ++ (a.par ++ C))) (A.length + 4) par =
          some (A ++ (({ a with type := t, mark := m, par := par } : Act).bytes ++ C)) := by
        have := setBytes_mid (A ++ [t, 4 + a.par.length, a.round, a.tid + if m then 128 else 0]) a.par par C (A.length + 4) (by simp) hc.2
        simpa [Act.bytes, hc.2] using this
      rw [q1]
      simp only
      rw [q2]
      simp only
      rw [q3]
      refine ⟨_, rfl, ?_, ?_, ?_, h.used, h.tmp, h.newCount, h.newRounds, ?_, h.okNew⟩
      · rw [← hA, ← hC, ← enc_cons, ← enc_append]
        congr 1
        rw [List.set_eq_take_append_cons_drop, if_pos hk]
      · rw [List.length_set]
        exact h.count
      · exact h.rounds.trans (roundsOf_set _ _ _ { a with type := t, mark := m, par := par } ha rfl).symm
      · intro b hb
        rcases List.mem_or_eq_of_mem_set hb with hb | rfl
        · exact h.okAct b hb
        · exact ⟨hc.1, by simp only; rw [hc.2]; exact hf.2.1, hf.2.2.1, hf.2.2.2⟩
    · rw [if_neg hc, if_pos hc]
      exact ⟨nofun, fun _ => rfl⟩

theorem step_holds {s : Seq} {p : Lists} (h : Holds s p) (junk : Nat → Nat) (o : Op) :
    (∀ p', p.step o = some p' → ∃ s', s.step junk o = some s' ∧ Holds s' p') ∧ (p.step o = none → s.step junk o = none) := by
  cases o with
  | add t r i par => exact step_add h junk t r i par
  | copy k r => exact step_copy h junk k r
  | modify k t m par => exact step_modify h k t m par
  | activate =>
    refine ⟨?_, nofun⟩
    intro p' hp'
    cases hp'
    obtain ⟨R, hR⟩ := h.tmp
    have : getBytes s.tmp 0 s.used = some (enc p.new) := by
      rw [hR]
      exact getBytes_mid [] (enc p.new) R 0 s.used rfl h.used
    unfold Seq.step Seq.activate
    simp only
    rw [this]
    exact ⟨_, rfl, rfl, h.newCount, h.newRounds, rfl, ⟨s.tmp, rfl⟩, rfl, rfl, h.okNew, fun _ h => (by cases h)⟩
  | discard =>
    refine ⟨?_, nofun⟩
    intro p' hp'
    cases hp'
    exact ⟨_, rfl, h.act, h.count, h.rounds, rfl, ⟨s.tmp, rfl⟩, rfl, rfl, h.okAct, fun _ h => (by cases h)⟩
  | freeTemp =>
    unfold Lists.step Seq.step Seq.freeTemp
    simp only
    by_cases hn : p.new = []
    · rw [if_pos hn, if_pos (by rw [h.newCount, hn]; rfl)]
      refine ⟨?_, nofun⟩
      intro p' hp'
      cases hp'
      refine ⟨_, rfl, h.act, h.count, h.rounds, h.used, ⟨[], ?_⟩, h.newCount, h.newRounds, h.okAct, h.okNew⟩
      rw [hn]
      rfl
    · rw [if_neg hn, if_neg (fun e => hn (List.eq_nil_of_length_eq_zero (h.newCount ▸ e)))]
      exact ⟨nofun, fun _ => rfl⟩

theorem run_holds : ∀ (os : List ((Nat → Nat) × Op)) {s : Seq} {p : Lists}, Holds s p →
    (∀ p', p.run (os.map Prod.snd) = some p' → ∃ s', s.run os = some s' ∧ Holds s' p') ∧ (p.run (os.map Prod.snd) = none → s.run os = none) := by
  intro os
  induction os with
  | nil =>
    intro s p h
    refine ⟨?_, nofun⟩
    intro p' hp'
    cases hp'
    exact ⟨s, rfl, h⟩
  | cons o os ih =>
    intro s p h
    obtain ⟨h1, h2⟩ := step_holds h o.1 o.2
    rw [List.map_cons, Lists.run, Seq.run]
    cases hp : p.step o.2 with
    | none =>
      rw [h2 hp]
      exact ⟨nofun, fun _ => rfl⟩
    | some p1 =>
      obtain ⟨s1, e, hs⟩ := h1 p1 hp
      rw [e]
      exact ih hs

theorem isRounds (l : List Act) : IsRounds l (roundsOf l) := by
  suffices H : ∀ (l : List Act) (n : Nat), n ≤ l.foldl (fun n a => if n ≤ a.round then a.round + 1 else n) n ∧
      (∀ a ∈ l, a.round < l.foldl (fun n a => if n ≤ a.round then a.round + 1 else n) n) ∧
      ∀ m, n ≤ m → (∀ a ∈ l, a.round < m) → l.foldl (fun n a => if n ≤ a.round then a.round + 1 else n) n ≤ m by
    obtain ⟨_, h1, h2⟩ := H l 0
    exact ⟨h1, fun m hm => h2 m (Nat.zero_le _) hm⟩
  intro l
  induction l with
  | nil => intro n; exact ⟨Nat.le_refl _, fun a h => (by cases h), fun m h _ => h⟩
  | cons a l ih =>
    intro n
    rw [List.foldl_cons]
    obtain ⟨v, hv, g1, g2, g3⟩ : ∃ v, (if n ≤ a.round then a.round + 1 else n) = v ∧ n ≤ v ∧ a.round < v ∧ (v = n ∨ v = a.round + 1) := by
      refine ⟨_, rfl, ?_⟩
      split <;> omega
    rw [hv]
    obtain ⟨h1, h2, h3⟩ := ih v
    refine ⟨by omega, ?_, ?_⟩
    · intro b hb
      rcases List.mem_cons.1 hb with rfl | hb
      · omega
      · exact h2 b hb
    · intro m hm hall
      refine h3 m ?_ (fun b hb => hall b (List.mem_cons_of_mem _ hb))
      have := hall a List.mem_cons_self
      omega

end Laik.As
