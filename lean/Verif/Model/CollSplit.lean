import Mathlib.Tactic.NormNum
import Verif.Model.CollRun
/-!
# Effect of splitting communicators
-/

namespace Laik.Mm

open Function

variable {S : Comm → Prop} {c : Comm}

/-! ### bytes -/

theorem unle_leN (n v : Nat) : unle (leN n v) = v % 256 ^ n := by
  induction n generalizing v with
  | zero => simp [leN, unle, Nat.mod_one]
  | succ n ih =>
    have e : (UInt8.ofNat (v % 256)).toNat = v % 256 := by
      simp only [UInt8.toNat_ofNat']
      exact Nat.mod_mod _ _
    simp only [leN, unle, ih, e]
    rw [Nat.pow_succ', Nat.mod_mul]

theorem le64_length (v : Int) : (le64 v).length = 8 := leN_length _ _

theorem bmod64 {v : Int} (h : -2147483648 ≤ v) (h' : v < 2147483648) :
    Int.bmod (((v % 18446744073709551616).toNat % 18446744073709551616 : Nat) : Int)
      18446744073709551616 = v := by
  rw [Nat.mod_eq_of_lt (by omega), Int.toNat_of_nonneg (by omega)]
  rw [Int.bmod_def]
  generalize hw : v % 18446744073709551616 = w
  have : w = v ∨ w = v + 18446744073709551616 := by omega
  have e : (((18446744073709551616 : Nat) : Int) + 1) / 2 = 9223372036854775808 := by norm_num
  have e' : ((18446744073709551616 : Nat) : Int) = 18446744073709551616 := by norm_num
  rw [e, e']
  split <;> omega

theorem unle64_le64 {v : Int} (h : -2 ^ 31 ≤ v) (h' : v < 2 ^ 31) : unle64 (le64 v) = v := by
  have e1 : (2 : Int) ^ 64 = 18446744073709551616 := by norm_num
  have e2 : (2 : Nat) ^ 64 = 18446744073709551616 := by norm_num
  have e3 : (256 : Nat) ^ 8 = 18446744073709551616 := by norm_num
  have e4 : (2 : Int) ^ 31 = 2147483648 := by norm_num
  rw [e4] at h h'
  unfold unle64 le64
  rw [unle_leN, e1, e2, e3]
  exact bmod64 h h'

theorem Split.bytes_length (x : Split) : x.bytes.length = 24 := by
  simp [Split.bytes, le64_length, leN_length]

theorem unsplit_bytes {x : Split} (h : -2 ^ 31 ≤ x.color ∧ x.color < 2 ^ 31)
    (h' : -2 ^ 31 ≤ x.hint ∧ x.hint < 2 ^ 31) (hr : x.rank < 2 ^ 64) : unsplit x.bytes = x := by
  have h1 : (256 : Nat) ^ 8 = 2 ^ 64 := by decide
  have e1 : x.bytes.take 8 = le64 x.color := by
    rw [Split.bytes, List.append_assoc, List.take_left' (le64_length _)]
  have e2 : x.bytes.drop 8 = le64 x.hint ++ leN 8 x.rank := by
    rw [Split.bytes, List.append_assoc, List.drop_left' (le64_length _)]
  have e3 : x.bytes.drop 16 = leN 8 x.rank := by
    rw [Split.bytes, List.drop_left' (by simp [le64_length])]
  simp only [unsplit, e1, e2, e3, List.take_left' (le64_length _), unle64_le64 h.1 h.2,
    unle64_le64 h'.1 h'.2, unle_leN, h1, Nat.mod_eq_of_lt hr]

theorem splitLe_iff {a b : Split} (ha : -2 ^ 30 ≤ a.hint ∧ a.hint < 2 ^ 30)
    (hb : -2 ^ 30 ≤ b.hint ∧ b.hint < 2 ^ 30) : splitLe a b = true ↔ a.hint ≤ b.hint := by
  simp only [splitLe, decide_eq_true_eq]
  rw [Int.bmod_def]
  split <;> omega

/-! ### sorting -/

section
variable {α : Type} {le : α → α → Bool}

theorem ins_perm (x : α) (l : List α) : (ins le x l).Perm (x :: l) := by
  induction l with
  | nil => exact .refl _
  | cons y l ih =>
    simp only [ins]
    split
    · exact .refl _
    · exact (ih.cons y).trans (.swap x y l)

theorem isort_perm (l : List α) : (isort le l).Perm l := by
  induction l with
  | nil => exact .refl _
  | cons x l ih => exact (ins_perm x _).trans (ih.cons x)

/-- Sorted by a number which the comparison respects. -/
theorem isort_sorted {f : α → Int} {l : List α}
    (h : ∀ a ∈ l, ∀ b ∈ l, le a b = true ↔ f a ≤ f b) :
    (isort le l).Pairwise fun a b => f a ≤ f b := by
  induction l with
  | nil => exact .nil
  | cons x l ih =>
    have h1 := ih fun a ha b hb => h a (by simp [ha]) b (by simp [hb])
    have key : ∀ m : List α, (∀ a ∈ m, le x a = true ↔ f x ≤ f a) → m.Pairwise (fun a b => f a ≤ f b) →
        (ins le x m).Pairwise fun a b => f a ≤ f b := by
      intro m
      induction m with
      | nil => exact fun _ _ => by simp [ins]
      | cons y m ih2 =>
        intro hm hs
        obtain ⟨h3, h4⟩ := List.pairwise_cons.mp hs
        simp only [ins]
        split
        · rename_i hle
          have hxy := (hm y (by simp)).mp hle
          refine List.pairwise_cons.mpr ⟨fun b hb => ?_, hs⟩
          rcases List.mem_cons.mp hb with rfl | hb
          · exact hxy
          · exact Int.le_trans hxy (h3 b hb)
        · rename_i hle
          have hxy : ¬ f x ≤ f y := fun e => hle ((hm y (by simp)).mpr e)
          refine List.pairwise_cons.mpr ⟨fun b hb => ?_, ih2 (fun a ha => hm a (by simp [ha])) h4⟩
          rcases List.mem_cons.mp ((ins_perm x m).mem_iff.mp hb) with rfl | hb
          · omega
          · exact h3 b hb
    exact key _ (fun a ha => h x (by simp) a (by simp [(isort_perm l).mem_iff.mp ha])) h1

end

/-! ### the loop -/

/-- Entries which go into the new communicator. -/
def keep (rank : Nat) (color : Int) (x : Split) : Bool := x.rank = rank ∨ (x.color = color ∧ x.color ≠ -1)

theorem splitLoop_fst (rank : Nat) (color : Int) (l : List Split) : ∀ (tasks : List Nat) (r : Option Nat),
    (splitLoop c rank color l tasks r).1 = tasks ++ (l.filter (keep rank color)).map fun x => c.proc x.rank := by
  induction l with
  | nil => simp [splitLoop]
  | cons x l ih =>
    intro tasks r
    simp only [splitLoop, ih]
    by_cases h : x.rank = rank ∨ (x.color = color ∧ x.color ≠ -1)
    · have : keep rank color x = true := by simpa [keep] using h
      rw [if_pos h, List.filter_cons_of_pos this]
      simp [Comm.proc]
    · have : ¬ keep rank color x = true := by simpa [keep] using h
      rw [if_neg h, List.filter_cons_of_neg this]

theorem splitLoop_none (rank : Nat) (color : Int) (l : List Split) (h : ∀ x ∈ l, x.rank ≠ rank) :
    ∀ (tasks : List Nat) (r : Option Nat), (splitLoop c rank color l tasks r).2 = r := by
  induction l with
  | nil => simp [splitLoop]
  | cons x l ih =>
    intro tasks r
    simp only [splitLoop, if_neg (h x (by simp)), ih fun y hy => h y (by simp [hy])]

theorem splitLoop_snd (rank : Nat) (color : Int) (l : List Split) (hd : (l.map Split.rank).Nodup)
    (h : rank ∈ l.map Split.rank) : ∀ (tasks : List Nat) (r : Option Nat),
    (splitLoop c rank color l tasks r).2 =
      some (tasks.length + ((l.filter (keep rank color)).map Split.rank).idxOf rank) := by
  induction l with
  | nil => simp at h
  | cons x l ih =>
    intro tasks r
    simp only [List.map_cons, List.nodup_cons] at hd
    by_cases hx : x.rank = rank
    · have hk : keep rank color x = true := by simp [keep, hx]
      have hn : ∀ y ∈ l, y.rank ≠ rank := fun y hy e =>
        hd.1 (hx ▸ e ▸ List.mem_map.mpr ⟨y, hy, rfl⟩)
      simp only [splitLoop, splitLoop_none rank color l hn, List.filter_cons_of_pos hk,
        List.map_cons, hx, if_true, List.idxOf_cons_self, Nat.add_zero]
    · have hm : rank ∈ l.map Split.rank := by
        rcases List.mem_cons.mp h with e | h
        · exact absurd e.symm hx
        · exact h
      simp only [splitLoop, ih hd.2 hm, if_neg hx]
      by_cases h : x.rank = rank ∨ (x.color = color ∧ x.color ≠ -1)
      · have hk : keep rank color x = true := by simpa [keep] using h
        rw [if_pos h, List.filter_cons_of_pos hk, List.map_cons, List.idxOf_cons_ne _ hx]
        simp; omega
      · have hk : ¬ keep rank color x = true := by simpa [keep] using h
        rw [if_neg h, List.filter_cons_of_neg hk]

/-- Entry of a rank. -/
def entry (color hint : Nat → Int) (r : Nat) : Split := ⟨color r, hint r, r⟩

/-- The result of the loop is the communicator wanted. -/
theorem splitEnd_eq {async : Bool} {color hint : Nat → Int} (hok : (Call.split c async color hint).OK S)
    {r : Nat} (hr : r < c.tasks.length) {s : PS}
    (hs : s.splits.Perm ((List.range c.tasks.length).map (entry color hint))) :
    splitEnd c r (color r) s =
      some { s with splits := [], comms := s.comms ++ [splitFor c color hint r] } := by
  obtain ⟨_, _, hrg, hdist⟩ := hok
  have hp : (isort splitLe s.splits).Perm ((List.range c.tasks.length).map (entry color hint)) :=
    (isort_perm _).trans hs
  have hmem : ∀ x ∈ (List.range c.tasks.length).map (entry color hint), ∃ q, q < c.tasks.length ∧
      x = entry color hint q := by
    intro x hx
    obtain ⟨q, hq, rfl⟩ := List.mem_map.mp hx
    exact ⟨q, List.mem_range.mp hq, rfl⟩
  have hsort : (isort splitLe s.splits).Pairwise fun a b => a.hint ≤ b.hint := by
    refine isort_sorted (f := Split.hint) fun a ha b hb => ?_
    obtain ⟨q, hq, rfl⟩ := hmem a (hs.mem_iff.mp ha)
    obtain ⟨q', hq', rfl⟩ := hmem b (hs.mem_iff.mp hb)
    exact splitLe_iff ⟨(hrg q hq).2.2.1, (hrg q hq).2.2.2⟩ ⟨(hrg q' hq').2.2.1, (hrg q' hq').2.2.2⟩
  have hranks : ((List.range c.tasks.length).map (entry color hint)).map Split.rank =
      List.range c.tasks.length := by
    rw [List.map_map]
    exact List.map_id _
  have hd : ((isort splitLe s.splits).map Split.rank).Nodup :=
    (hp.map Split.rank).nodup_iff.mpr (by rw [hranks]; exact List.nodup_range)
  have hrm : r ∈ (isort splitLe s.splits).map Split.rank :=
    (hp.map Split.rank).mem_iff.mpr (by rw [hranks]; exact List.mem_range.mpr hr)
  -- the entries kept
  have key : (isort splitLe s.splits).filter (keep r (color r)) =
      (if color r = -1 then [r] else colorGroup c.tasks.length color hint (color r)).map
        (entry color hint) := by
    have hpf := hp.filter (keep r (color r))
    split
    · rename_i h
      have : ((List.range c.tasks.length).map (entry color hint)).filter (keep r (color r)) =
          [entry color hint r] := by
        rw [List.filter_map]
        have : (List.range c.tasks.length).filter (keep r (color r) ∘ entry color hint) = [r] := by
          have e : ∀ q, (keep r (color r) ∘ entry color hint) q = decide (q = r) := by
            intro q
            simp only [keep, comp, entry, h]
            by_cases hq : q = r
            · simp [hq]
            · simp [hq]
          rw [funext e]
          obtain ⟨a, b, h1, h2, h3⟩ := split_mem List.nodup_range (List.mem_range.mpr hr)
          rw [h1]
          have ha : a.filter (fun q => decide (q = r)) = [] :=
            List.filter_eq_nil_iff.mpr fun q hq => by
              have : q ≠ r := fun e => h2 (e ▸ hq)
              simp [this]
          have hb : b.filter (fun q => decide (q = r)) = [] :=
            List.filter_eq_nil_iff.mpr fun q hq => by
              have : q ≠ r := fun e => h3 (e ▸ hq)
              simp [this]
          simp [ha, hb]
        rw [this]; rfl
      rw [this] at hpf
      exact List.perm_singleton.mp hpf
    · rename_i hcol
      have hpc : (colorGroup c.tasks.length color hint (color r)).Perm
          ((List.range c.tasks.length).filter fun q => color q = color r) := List.mergeSort_perm _ _
      have e : ((List.range c.tasks.length).map (entry color hint)).filter (keep r (color r)) =
          ((List.range c.tasks.length).filter fun q => color q = color r).map (entry color hint) := by
        rw [List.filter_map]
        congr 1
        refine List.filter_congr fun q _ => ?_
        simp only [keep, comp, entry]
        by_cases hq : color q = color r
        · simp [hq, hcol]
        · have : q ≠ r := fun e => hq (e ▸ rfl)
          simp [hq, this]
      rw [e] at hpf
      refine List.Perm.eq_of_pairwise (le := fun a b : Split => a.hint ≤ b.hint) ?_ (hsort.filter _) ?_
        (hpf.trans (hpc.map _).symm)
      · intro a b ha hb h1 h2
        obtain ⟨q, hq, rfl⟩ := List.mem_map.mp (hpf.mem_iff.mp ha)
        obtain ⟨q', hq', rfl⟩ := List.mem_map.mp hb
        have hq' := hpc.mem_iff.mp hq'
        simp only [List.mem_filter, List.mem_range, decide_eq_true_eq] at hq hq'
        have := hdist q q' hq.1 hq'.1 (hq.2.trans hq'.2.symm) (fun e => hcol (hq.2.symm.trans e))
          (Int.le_antisymm h1 h2)
        rw [this]
      · rw [List.pairwise_map]
        have := List.pairwise_mergeSort (le := fun a b : Nat => decide (hint a ≤ hint b))
          (fun a b d => by simp only [decide_eq_true_eq]; omega)
          (fun a b => by simp only [Bool.or_eq_true, decide_eq_true_eq]; omega)
          ((List.range c.tasks.length).filter fun q => color q = color r)
        exact this.imp fun h => by simpa [entry] using h
  have h1 := splitLoop_fst (c := c) r (color r) (isort splitLe s.splits) [] none
  have h2 := splitLoop_snd (c := c) r (color r) (isort splitLe s.splits) hd hrm [] none
  rw [key] at h1 h2
  simp only [List.nil_append, List.map_map, List.length_nil, Nat.zero_add] at h1 h2
  have hid : ∀ l : List Nat, l.map (Split.rank ∘ entry color hint) = l := fun l => List.map_id l
  rw [hid] at h2
  have hpr : ∀ l : List Nat, l.map ((fun x : Split => c.proc x.rank) ∘ entry color hint) = l.map c.proc :=
    fun l => rfl
  rw [hpr] at h1
  have hin : r ∈ (if color r = -1 then [r] else colorGroup c.tasks.length color hint (color r)) := by
    split
    · simp
    · refine (List.mergeSort_perm _ _).mem_iff.mpr ?_
      simp [hr]
  simp only [splitEnd]
  generalize splitLoop c r (color r) (isort splitLe s.splits) [] none = z at h1 h2
  obtain ⟨tasks, o⟩ := z
  simp only at h1 h2
  subst h1 h2
  simp only [List.length_map, List.idxOf_lt_length_of_mem hin, if_pos, splitFor]
  split
  · simp [Comm.proc]
  · rfl

/-! ### run of a split -/

theorem run_append {σ : Type} (a b : List (Ev σ)) (st : Nat → σ) : run (a ++ b) st = (run a st).bind (run b) := by
  induction a generalizing st with
  | nil => rfl
  | cons e a ih =>
    simp only [List.cons_append, run]
    cases e.step st with
    | none => rfl
    | some t => exact ih t

/-- State while splitting: messages of ranks `l` got. -/
def splitSt (c : Comm) (color hint : Nat → Int) (l : List Nat) (st : Nat → PS) (p : Nat) : PS :=
  if p ∈ c.tasks then
    { st p with splits := entry color hint (c.tasks.idxOf p) ::
        (l.filter (· ≠ c.tasks.idxOf p)).map (entry color hint) }
  else st p

theorem idxOf_proc (hn : c.tasks.Nodup) {r : Nat} (h : r < c.tasks.length) : c.tasks.idxOf (c.proc r) = r := by
  have h1 := Comm.proc_mem h
  exact Comm.proc_inj hn (List.idxOf_lt_length_of_mem h1) h (Comm.proc_idxOf h1)

theorem run_splitInits (hn : c.tasks.Nodup) (color hint : Nat → Int) (st : Nat → PS) (es : List (Ev PS)) :
    run (splitInits c color hint ++ es) st = run es (splitSt c color hint [] st) := by
  refine run_star hn (fun _ => True) _ (fun r s => some (splitInit (entry color hint r) s)) _ es _ _
    List.nodup_range (fun r hr => List.mem_range.mp hr) trivial (fun r hr st _ => rfl)
    (fun _ _ _ _ _ => trivial) (fun r hr => ?_) fun p hp => ?_
  · have hr := List.mem_range.mp hr
    simp [splitSt, Comm.proc_mem hr, idxOf_proc hn hr, splitInit]
  · refine if_neg fun h => ?_
    exact hp _ (List.mem_range.mpr (List.idxOf_lt_length_of_mem h)) (Comm.proc_idxOf h)

theorem run_splitMsgs (hn : c.tasks.Nodup) {async : Bool} {color hint : Nat → Int}
    (hok : (Call.split c async color hint).OK S) (st : Nat → PS) (es : List (Ev PS)) :
    ∀ (l done : List Nat), (∀ x ∈ l, x < c.tasks.length) →
      run (splitMsgs c async color hint l ++ es) (splitSt c color hint done st) =
        run es (splitSt c color hint (done ++ l) st) := by
  intro l
  induction l with
  | nil => intro done _; simp [splitMsgs]
  | cons x l ih =>
    intro done hl
    have hx := hl x (by simp)
    have e : done ++ x :: l = (done ++ [x]) ++ l := by simp
    rw [splitMsgs_cons, List.append_assoc, e, ← ih (done ++ [x]) fun y hy => hl y (by simp [hy])]
    obtain ⟨_, hlen, hrg, _⟩ := hok
    have hu : unsplit (Split.bytes (entry color hint x)) = entry color hint x := by
      obtain ⟨h1, h2, h3, h4⟩ := hrg x hx
      refine unsplit_bytes ⟨h1, h2⟩ ?_ (Nat.lt_trans hx hlen)
      have e1 : (2 : Int) ^ 30 = 1073741824 := by norm_num
      have e2 : (2 : Int) ^ 31 = 2147483648 := by norm_num
      rw [e1] at h3 h4
      rw [e2]
      simp only [entry]
      omega
    have hg : ∀ s : PS, splitGot s (Split.bytes (entry color hint x)) =
        some { s with splits := s.splits ++ [entry color hint x] } := by
      intro s
      simp [splitGot, Split.bytes_length, hu]
    refine run_star hn (fun _ => True) _ (fun r s => splitGot s (Split.bytes (entry color hint x))) _ _ _ _
      (others_nodup _ _) (fun r hr => (mem_others.mp hr).1) trivial (fun r hr st _ => ?_)
      (fun _ _ _ _ _ => trivial) (fun r hr => ?_) fun p hp => ?_
    · have h1 := Comm.getElem?_proc hx
      have h2 := Comm.getElem?_proc (mem_others.mp hr).1
      cases async <;> simp [splitEv, Ev.step, Chan.src, Chan.dst, h1, h2, entry]
    · obtain ⟨h1, h2⟩ := mem_others.mp hr
      have h3 : x ≠ r := fun e => h2 e.symm
      simp [hg, splitSt, Comm.proc_mem h1, idxOf_proc hn h1, List.filter_append, h3]
    · unfold splitSt
      split
      · rename_i h
        have h1 := List.idxOf_lt_length_of_mem h
        have h2 : x = c.tasks.idxOf p := by
          by_cases e : x = c.tasks.idxOf p
          · exact e
          · exact absurd (Comm.proc_idxOf h) (hp _ (mem_others.mpr ⟨h1, fun e' => e e'.symm⟩))
        simp [List.filter_append, ← h2]
      · rfl

theorem run_splitEnds (hn : c.tasks.Nodup) {F : Flt} {async : Bool} {color hint : Nat → Int}
    (hok : (Call.split c async color hint).OK S) {st t : Nat → PS}
    (h : (Call.split c async color hint).eval F st = some t) (es : List (Ev PS)) :
    run (splitEnds c color ++ es) (splitSt c color hint (List.range c.tasks.length) st) = run es t := by
  simp only [Call.eval] at h
  obtain rfl := Option.some.inj h
  refine run_star hn (fun _ => True) _ (fun r => splitEnd c r (color r)) _ es _ _
    List.nodup_range (fun r hr => List.mem_range.mp hr) trivial (fun r hr st _ => rfl)
    (fun _ _ _ _ _ => trivial) (fun r hr => ?_) fun p hp => ?_
  · have hr := List.mem_range.mp hr
    rw [splitEnd_eq hok hr]
    · simp [splitSt, Comm.proc_mem hr, idxOf_proc hn hr]
    · simp only [splitSt, Comm.proc_mem hr, if_true, idxOf_proc hn hr]
      rw [← List.map_cons]
      refine List.Perm.map _ ?_
      have h1 : (List.range c.tasks.length).filter (· ≠ r) = (List.range c.tasks.length).erase r := by
        rw [List.nodup_range.erase_eq_filter]
        refine List.filter_congr fun x _ => ?_
        by_cases hx : x = r <;> simp [hx]
      rw [h1]
      exact (List.perm_cons_erase (List.mem_range.mpr hr)).symm
  · have : p ∉ c.tasks := fun h =>
      hp _ (List.mem_range.mpr (List.idxOf_lt_length_of_mem h)) (Comm.proc_idxOf h)
    simp [splitSt, this]

theorem run_split (hn : c.tasks.Nodup) {F : Flt} {async : Bool} {color hint : Nat → Int}
    (hok : (Call.split c async color hint).OK S) {st t : Nat → PS}
    (h : (Call.split c async color hint).eval F st = some t) (es : List (Ev PS)) :
    run (splitE c async color hint ++ es) st = run es t := by
  simp only [splitE, List.append_assoc]
  rw [run_splitInits hn]
  have hm := fun es => run_splitMsgs hn hok st es (List.range c.tasks.length) [] (by simp)
  simp only [List.nil_append] at hm
  cases async with
  | false =>
    simp only [Bool.false_eq_true, if_false]
    rw [hm, run_splitEnds hn hok h]
  | true =>
    simp only [if_true, List.cons_append, List.append_assoc, run, Ev.step, Option.bind_some]
    rw [hm]
    simp only [List.nil_append, run, Ev.step, Option.bind_some]
    exact run_splitEnds hn hok h es

/-- Calls have the effect wanted, if messages are handed over one after the other. -/
theorem run_evsAll {F : Flt} (hS : Sep S) : ∀ {ds : List Call} {st t : Nat → PS}, (∀ d ∈ ds, d.OK S) →
    evalAll F ds st = some t → run (evsAll F ds) st = some t := by
  intro ds
  induction ds with
  | nil => exact fun _ h => h
  | cons d ds ih =>
    intro st t hok h
    have hd := hok d (by simp)
    simp only [evalAll, Option.bind_eq_some_iff] at h
    obtain ⟨m, h1, h2⟩ := h
    have h3 := ih (fun x hx => hok x (by simp [hx])) h2
    have hn := hS.nodup _ hd.arg.comm
    refine Eq.trans ?_ h3
    show run (d.evs F ++ evsAll F ds) st = _
    cases d with
    | bcast c x n ty root => exact run_bcast hn h1 _
    | reduce c inp out n ty op root => exact run_reduce hn h1 _
    | allreduce c inp out n ty op =>
      simp only [Call.eval, Option.bind_eq_some_iff] at h1
      obtain ⟨k, h4, h5⟩ := h1
      simp only [Call.evs, List.append_assoc]
      rw [run_reduce (c := c) hn h4, run_bcast (c := c) hn h5]
    | barrier c =>
      obtain rfl := Option.some.inj h1
      exact run_barrier hn _ _
    | p2p c s r tag x size y cap => exact run_p2p h1 _
    | split c async color hint => exact run_split hn hd h1 _

end Laik.Mm
