import Verif.Model.MemStat
import Verif.Spec.MemHist
import Mathlib.Data.List.Infix
import Mathlib.Data.List.Induction
/-!
# C37 Memory accounting
-/

namespace Laik
open Mem

/-- One event of a history, counted. -/
def memStep (s : SwStat) : MemEv → SwStat
  | .malloc b => ssMalloc s (BitVec.ofNat 64 b)
  | .free b => ssFree s (BitVec.ofNat 64 b)

/-- Statistics after a history. -/
def memRun (s : SwStat) (h : List MemEv) : SwStat := h.foldl memStep s

theorem allocd_append (a b : List MemEv) : allocd (a ++ b) = allocd a + allocd b := by
  induction a with
  | nil => simp [allocd]
  | cons e a ih => cases e <;> simp [allocd, ih] <;> omega

theorem released_append (a b : List MemEv) : released (a ++ b) = released a + released b := by
  induction a with
  | nil => simp [released]
  | cons e a ih => cases e <;> simp [released, ih] <;> omega

theorem memRun_snoc (s : SwStat) (h : List MemEv) (e : MemEv) :
    memRun s (h ++ [e]) = memStep (memRun s h) e := by
  simp [memRun]

/-- Totals count every event (numbers are `uint64_t`, hence modulo 2^64). -/
theorem C37_totals (h : List MemEv) :
    (memRun newSwitchStat h).malloced = BitVec.ofNat 64 (allocd h) ∧
    (memRun newSwitchStat h).freed = BitVec.ofNat 64 (released h) ∧
    (memRun newSwitchStat h).mallocCount + (memRun newSwitchStat h).freeCount = h.length := by
  induction h using List.reverseRecOn with
  | nil => exact ⟨rfl, rfl, rfl⟩
  | append_singleton h e ih =>
    obtain ⟨h1, h2, h3⟩ := ih
    rw [memRun_snoc]
    cases e with
    | malloc b =>
      refine ⟨?_, ?_, ?_⟩
      · simp [memStep, ssMalloc, allocd_append, allocd, h1, BitVec.ofNat_add]
      · simp [memStep, ssMalloc, released_append, released, h2]
      · simp only [memStep, ssMalloc, List.length_append, List.length_singleton]; omega
    | free b =>
      refine ⟨?_, ?_, ?_⟩
      · simp [memStep, ssFree, allocd_append, allocd, h1]
      · simp [memStep, ssFree, released_append, released, h2, BitVec.ofNat_add]
      · simp only [memStep, ssFree, List.length_append, List.length_singleton]; omega

/-- At every time, current = allocated - freed, in arithmetic modulo 2^64 even
for histories which free more than was allocated. -/
theorem C37_current_mod (h : List MemEv) :
    (memRun newSwitchStat h).curr =
      (memRun newSwitchStat h).malloced - (memRun newSwitchStat h).freed := by
  induction h using List.reverseRecOn with
  | nil => rfl
  | append_singleton h e ih =>
    rw [memRun_snoc]
    cases e with
    | malloc b =>
      simp only [memStep, ssMalloc]
      rw [ih]; grind
    | free b =>
      simp only [memStep, ssFree]
      rw [ih]; grind

theorem sane_prefix {h p : List MemEv} (hs : Sane h) (hp : p <+: h) : Sane p :=
  fun q hq => hs q (hq.trans hp)

/-- The current number is the number of bytes in use. -/
theorem C37_current (h : List MemEv) (hs : Sane h) :
    (memRun newSwitchStat h).curr.toNat = allocd h - released h := by
  obtain ⟨hle, hlt⟩ := hs h List.prefix_rfl
  have hb : (memRun newSwitchStat h).curr = BitVec.ofNat 64 (allocd h - released h) := by
    rw [C37_current_mod, (C37_totals h).1, (C37_totals h).2.1]
    have : allocd h = (allocd h - released h) + released h := by omega
    generalize hd : allocd h - released h = d at *
    rw [this, BitVec.ofNat_add]; grind
  rw [hb, BitVec.toNat_ofNat, Nat.mod_eq_of_lt hlt]

/-- The maximum is the peak over the whole history. -/
theorem C37_maximum (h : List MemEv) (hs : Sane h) :
    IsPeak h (memRun newSwitchStat h).max.toNat := by
  induction h using List.reverseRecOn with
  | nil =>
    refine ⟨⟨[], List.prefix_rfl, rfl⟩, ?_⟩
    intro p hp
    rw [List.prefix_nil.mp hp]; simp [allocd, released]
  | append_singleton h e ih =>
    obtain ⟨⟨q, hq, hqe⟩, hall⟩ := ih (sane_prefix hs (List.prefix_append _ _))
    have hcur := C37_current (h ++ [e]) hs
    rw [memRun_snoc] at hcur ⊢
    have hpre : ∀ p, p <+: h ++ [e] → p <+: h ∨ p = h ++ [e] := by
      intro p hp
      rcases List.prefix_concat_iff.mp hp with h1 | h1
      · exact Or.inr h1
      · exact Or.inl h1
    cases e with
    | malloc b =>
      simp only [memStep, ssMalloc] at hcur ⊢
      split
      · rename_i hgt
        have hgt' : (memRun newSwitchStat h).max.toNat <
            ((memRun newSwitchStat h).curr + BitVec.ofNat 64 b).toNat := hgt
        refine ⟨⟨_, List.prefix_rfl, hcur⟩, ?_⟩
        intro p hp
        rcases hpre p hp with h1 | h1
        · have := hall p h1; omega
        · rw [h1, ← hcur]
      · rename_i hgt
        have hgt' : ((memRun newSwitchStat h).curr + BitVec.ofNat 64 b).toNat ≤
            (memRun newSwitchStat h).max.toNat := Nat.le_of_not_lt hgt
        refine ⟨⟨q, hq.trans (List.prefix_append _ _), hqe⟩, ?_⟩
        intro p hp
        rcases hpre p hp with h1 | h1
        · exact hall p h1
        · rw [h1, ← hcur]; exact hgt'
    | free b =>
      simp only [memStep, ssFree] at hcur ⊢
      refine ⟨⟨q, hq.trans (List.prefix_append _ _), hqe⟩, ?_⟩
      intro p hp
      rcases hpre p hp with h1 | h1
      · exact hall p h1
      · have h2 := hall h List.prefix_rfl
        rw [h1, allocd_append, released_append]
        simp only [allocd, released]
        omega

/-- Merging statistics adds all counters except for the current number. -/
theorem C37_merge_partial (a b : List MemEv) :
    let m := addSwitchStat (memRun newSwitchStat a) (memRun newSwitchStat b)
    m.malloced = BitVec.ofNat 64 (allocd (a ++ b)) ∧
    m.freed = BitVec.ofNat 64 (released (a ++ b)) ∧
    m.mallocCount + m.freeCount = (a ++ b).length := by
  simp only [addSwitchStat, (C37_totals a).1, (C37_totals b).1, (C37_totals a).2.1,
    (C37_totals b).2.1, allocd_append, released_append, List.length_append,
    ← (C37_totals a).2.2, ← (C37_totals b).2.2, BitVec.ofNat_add]
  refine ⟨trivial, trivial, ?_⟩
  omega

/-- Two containers are used at overlapping or disjoint times; whatever the
interleaving `h` of the histories, the peak of the memory in use is at most
the sum of the peaks (the number shown by a merge). -/
theorem C37_merge_max_bound (a b h : List MemEv) (ma mb m : Nat)
    (ha : IsPeak a ma) (hb : IsPeak b mb) (hsa : Sane a) (hsb : Sane b)
    (hmerge : ∀ p, p <+: h → ∃ pa pb, pa <+: a ∧ pb <+: b ∧
      allocd p = allocd pa + allocd pb ∧ released p = released pa + released pb)
    (hm : IsPeak h m) : m ≤ ma + mb := by
  obtain ⟨⟨p, hp, rfl⟩, -⟩ := hm
  obtain ⟨pa, pb, hpa, hpb, h1, h2⟩ := hmerge p hp
  have := ha.2 pa hpa
  have := hb.2 pb hpb
  have := (hsa pa hpa).1
  have := (hsb pb hpb).1
  omega

/-- The maximum after a merge is not the maximum over the history: it is 20
for two containers which use 10 bytes one after the other. -/
theorem C37_merge_max_wrong :
    let a := [MemEv.malloc 10, .free 10]
    let m := addSwitchStat (memRun newSwitchStat a) (memRun newSwitchStat a)
    m.max = 20 ∧ Sane (a ++ a) ∧ IsPeak (a ++ a) 10 := by
  have hp : ∀ p : List MemEv, p <+: [MemEv.malloc 10, .free 10, .malloc 10, .free 10] →
      p = [] ∨ p = [.malloc 10] ∨ p = [.malloc 10, .free 10] ∨
      p = [.malloc 10, .free 10, .malloc 10] ∨ p = [.malloc 10, .free 10, .malloc 10, .free 10] := by
    intro p h
    have := (List.mem_inits _ _).mpr h
    simpa using this
  refine ⟨by decide, ?_, ?_⟩
  · intro p h
    rcases hp p h with h | h | h | h | h <;> subst h <;> decide
  · refine ⟨⟨[.malloc 10], ⟨[.free 10, .malloc 10, .free 10], rfl⟩, rfl⟩, ?_⟩
    intro p h
    rcases hp p h with h | h | h | h | h <;> subst h <;> decide

/-- After a merge, current = allocated - freed does not hold any more. -/
theorem C37_merge_current_wrong :
    let m := addSwitchStat newSwitchStat (memRun newSwitchStat [.malloc 10])
    m.malloced = 10 ∧ m.freed = 0 ∧ m.curr = 0 := by decide

/-- All counters of actions are added by a merge and by adding a sequence. -/
theorem C37_actions (t s : SwStat) (n : Nat) (hn : 0 < n) :
    addASeq t n s.acts = some { t with
      transitionCount := t.transitionCount + n
      acts := (addSwitchStat t s).acts } ∧
    (addSwitchStat t s).acts.byteSend = t.acts.byteSend + s.acts.byteSend ∧
    (addSwitchStat t s).acts.byteRecv = t.acts.byteRecv + s.acts.byteRecv ∧
    (addSwitchStat t s).acts.byteReduce = t.acts.byteReduce + s.acts.byteReduce ∧
    (addSwitchStat t s).acts.elemSend = t.acts.elemSend + s.acts.elemSend ∧
    (addSwitchStat t s).acts.elemRecv = t.acts.elemRecv + s.acts.elemRecv ∧
    (addSwitchStat t s).acts.elemReduce = t.acts.elemReduce + s.acts.elemReduce ∧
    (addSwitchStat t s).acts.msgSend = t.acts.msgSend + s.acts.msgSend ∧
    (addSwitchStat t s).acts.msgRecv = t.acts.msgRecv + s.acts.msgRecv ∧
    (addSwitchStat t s).acts.msgReduce = t.acts.msgReduce + s.acts.msgReduce := by
  refine ⟨?_, rfl, rfl, rfl, rfl, rfl, rfl, rfl, rfl, rfl⟩
  unfold addASeq
  rw [if_neg (by omega)]
  rfl

example : (memRun newSwitchStat [.malloc 100, .malloc 28, .free 100, .malloc 20]).curr = 48 ∧
    (memRun newSwitchStat [.malloc 100, .malloc 28, .free 100, .malloc 20]).max = 128 := by decide

example : Sane [.malloc 100, .free 40] := by
  intro p h
  have := (List.mem_inits _ _).mpr h
  simp at this
  rcases this with h | h | h <;> subst h <;> decide

end Laik
