import Verif.Model.CombineLemmas
/-!
# C22: combining actions does not change their effect
-/

namespace Laik

variable {β : Type}

/-! ### Specification -/

/-- Sequence which may be combined: sorted by rounds, and actions of the same
round may be done in any order (no action writes memory accessed by another
one of the same round, and only combinable actions share a channel). -/
def RoundSeq (e : CEnv) (inp : CKey → Nat → β) (l : List (CAct β)) : Prop :=
  l.Pairwise (fun a b => a.round ≤ b.round ∧ (a.round = b.round →
    MemIndep (a.body.op e inp) (b.body.op e inp) ∧
    (KeyIndep (a.body.op e inp) (b.body.op e inp) ∨
      ∃ k s d c s' d' c', a.body = .comm k s d c ∧ b.body = .comm k s' d' c')))

/-- Memory at `B … B+n` is used by no action. -/
def BufFree (e : CEnv) (inp : CKey → Nat → β) (l : List (CAct β)) (B n : Nat) : Prop :=
  ∀ a ∈ l, ∀ x, B ≤ x → x < B + n → ¬ (a.body.op e inp).R x ∧ (a.body.op e inp).W x = false

/-- Effect of the sequence before combining. -/
def runOld (e : CEnv) (inp : CKey → Nat → β) (l : List (CAct β)) (s : MSt CKey β) : MSt CKey β :=
  runOps (l.map (fun a => a.body.op e inp)) s

/-- Effect of the new sequence with the buffer at `B`. -/
def runNew (e : CEnv) (inp : CKey → Nat → β) (B : Nat) (l : List (Nat × CItem β)) (s : MSt CKey β) : MSt CKey β :=
  runOps (l.flatMap (fun y => y.2.ops e inp B)) s

/-- Sizes (in elements) of the messages with key `k` in round `r` of the old
sequence. -/
def oldMsgs (r : Nat) (k : CKey) (l : List (CAct β)) : List Nat :=
  l.filterMap (fun a => match a.body with
    | .comm k' _ _ c => if a.round = r ∧ k' = k then some c else none
    | .other _ => none)

/-- Sizes of the messages with key `k` in round `r` of the new sequence. -/
def newMsgs (r : Nat) (k : CKey) (l : List (Nat × CItem β)) : List Nat :=
  l.filterMap (fun y => match y.2 with
    | .act (.comm k' _ _ c) => if y.1 = r ∧ k' = k then some c else none
    | .rcomm k' _ c => if y.1 = r ∧ k' = k then some c else none
    | _ => none)

/-! ### Effect -/

theorem RoundSeq.seqRel {e : CEnv} {inp : CKey → Nat → β} {l : List (CAct β)} (h : RoundSeq e inp l) :
    l.Pairwise (SeqRel false e inp) :=
  h.imp (fun h => ⟨h.1, fun he => Or.inl ⟨(h.2 he).1, (h.2 he).2.symm⟩⟩)

/-- **C22**.  If `laik_aseq_combineActions` replaces the sequence, then the new
sequence, in any order sorted by the new rounds, has the same effect: same bytes
sent per peer/collective in the same order, same bytes consumed, same memory
except for the new buffer. -/
theorem C22_combine_equiv (e : CEnv) (inp : CKey → Nat → β) (B : Nat) (l : List (CAct β)) (n : Nat)
    (c c' : List (Nat × CItem β)) (hl : RoundSeq e inp l) (hbuf : BufFree e inp l B (n * e.elemsize))
    (hc : combine e l = some (.new n c)) (hperm : c'.Perm c) (hsort : c'.Pairwise (fun y z => y.1 ≤ z.1))
    (s : MSt CKey β) :
    SameOutside (fun x => B ≤ x ∧ x < B + n * e.elemsize) (runOld e inp l s) (runNew e inp B c' s) := by
  have hcc : n = (combGo e [] 0 l).2 ∧ c = (combGo e [] 0 l).1 := by
    simp only [combine] at hc
    split at hc
    · split at hc <;> simp at hc
    · split at hc
      · rename_i h
        injection hc with hc
        injection hc with h1 h2
        exact ⟨h1 ▸ h.2, h2.symm⟩
      · simp at hc
  obtain ⟨rfl, rfl⟩ := hcc
  have hs : ∀ x, Slice e B 0 (combGo e [] 0 l).2 x → B ≤ x ∧ x < B + (combGo e [] 0 l).2 * e.elemsize := by
    intro x hx; unfold Slice at hx; omega
  have hb : ∀ a ∈ l, ∀ x, (B ≤ x ∧ x < B + (combGo e [] 0 l).2 * e.elemsize) → ¬ (a.op e inp).R x ∧ (a.op e inp).W x = false :=
    fun a ha x hx => hbuf a ha x hx.1 hx.2
  have h1 := combGo_run e inp B _ l [] 0 hl.seqRel hb hs s s (SameOutside.refl _ _)
  have hf : l.filter (unseen []) = l := by
    rw [List.filter_eq_self]
    intro a _
    unfold unseen
    cases a.body <;> simp
  rw [hf] at h1
  have h2 : runOps (opsOf e inp B (combGo e [] 0 l).1) s = runNew e inp B c' s := by
    unfold opsOf runNew
    refine run_reorder _ c' _ hperm ?_ s
    intro x y hxy hyx _ a ha b hb'
    have hp := (combGo_pairwise e inp B _ l [] 0 hl.seqRel hb hs).sublist hxy
    have hq := hsort.sublist hyx
    simp only [List.pairwise_cons, List.mem_singleton, forall_eq] at hp hq
    rcases hp.1 with h | h | ⟨h, _⟩
    · exact absurd hq.1 (by omega)
    · exact h a ha b hb'
    · cases h
  rw [← h2]
  exact h1

/-! ### Messages -/

private theorem newMsgs_append (r : Nat) (k : CKey) (a b : List (Nat × CItem β)) :
    newMsgs r k (a ++ b) = newMsgs r k a ++ newMsgs r k b := List.filterMap_append

private theorem oldMsgs_cons_comm (r : Nat) (k k' : CKey) (a : CAct β) (l : List (CAct β)) {s d c : Nat} (h : a.body = .comm k' s d c) :
    oldMsgs r k (a :: l) = if a.round = r ∧ k' = k then c :: oldMsgs r k l else oldMsgs r k l := by
  unfold oldMsgs
  rw [List.filterMap_cons]
  simp only [h]
  split <;> rename_i hh <;> split at hh <;> simp_all

private theorem oldMsgs_filter (r : Nat) (k : CKey) (l : List (CAct β)) :
    oldMsgs r k l = (l.filter (CAct.same r k)).map CAct.count := by
  induction l with
  | nil => rfl
  | cons a l ih =>
    cases hb : a.body with
    | other op =>
      have h1 : oldMsgs r k (a :: l) = oldMsgs r k l := by
        unfold oldMsgs; rw [List.filterMap_cons]; simp [hb]
      have h2 : CAct.same r k a = false := by unfold CAct.same; simp [hb]
      rw [h1, ih, List.filter_cons_of_neg (by simp [h2])]
    | comm k' s d c =>
      rw [oldMsgs_cons_comm r k k' a l hb]
      by_cases h : a.round = r ∧ k' = k
      · have h2 : CAct.same r k a = true := by unfold CAct.same; simp [hb, h]
        have h3 : a.count = c := by unfold CAct.count; simp [hb]
        rw [if_pos h, ih, List.filter_cons_of_pos h2, List.map_cons, h3]
      · have h2 : CAct.same r k a = false := by unfold CAct.same; simp only [hb, decide_eq_false h]
        rw [if_neg h, ih, List.filter_cons_of_neg (by simp [h2])]

private theorem combGo_msgs (e : CEnv) (r : Nat) (k : CKey) (l : List (CAct β)) : ∀ seen off,
    newMsgs (3 * r + 1) k (combGo e seen off l).1 =
      if (r, k) ∈ seen ∨ oldMsgs r k l = [] then [] else [(oldMsgs r k l).sum] := by
  induction l with
  | nil => intro seen off; simp [combGo, newMsgs, oldMsgs]
  | cons a l ih =>
    intro seen off
    cases hb : a.body with
    | other op =>
      have h1 : oldMsgs r k (a :: l) = oldMsgs r k l := by
        unfold oldMsgs; rw [List.filterMap_cons]; simp [hb]
      rw [h1, ← ih seen off, combGo]
      simp only [hb]
      unfold newMsgs
      rw [List.filterMap_cons]
    | comm k' s d c =>
      rw [oldMsgs_cons_comm r k k' a l hb]
      by_cases cs : (a.round, k') ∈ seen
      · have e1 : combGo e seen off (a :: l) = combGo e seen off l := by
          rw [combGo]; simp only [hb, if_pos cs]
        rw [e1, ih]
        by_cases h : a.round = r ∧ k' = k
        · have : (r, k) ∈ seen := by rw [← h.1, ← h.2]; exact cs
          simp [this]
        · rw [if_neg h]
      · have hsum : sumCount (a :: l.filter (CAct.same a.round k')) = (c :: oldMsgs a.round k' l).sum := by
          rw [oldMsgs_filter, sumCount, List.map_cons]
          have h3 : a.count = c := by unfold CAct.count; simp [hb]
          rw [h3]
        by_cases cl : (a :: l.filter (CAct.same a.round k')).length > 1
        · have e1 : combGo e seen off (a :: l) = (emitGroup e a.round k' off (a :: l.filter (CAct.same a.round k')) ++
              (combGo e ((a.round, k') :: seen) (off + sumCount (a :: l.filter (CAct.same a.round k'))) l).1,
              (combGo e ((a.round, k') :: seen) (off + sumCount (a :: l.filter (CAct.same a.round k'))) l).2) := by
            rw [combGo]; simp only [hb, if_neg cs, if_pos cl]
          have h2 : newMsgs (3 * r + 1) k (emitGroup e a.round k' off (a :: l.filter (CAct.same a.round k'))) =
              if a.round = r ∧ k' = k then [sumCount (a :: l.filter (CAct.same a.round k'))] else [] := by
            unfold emitGroup
            rw [newMsgs_append, newMsgs_append]
            have : (3 * a.round + 1 = 3 * r + 1 ∧ k' = k) ↔ (a.round = r ∧ k' = k) := by
              constructor <;> rintro ⟨h, h'⟩ <;> exact ⟨by omega, h'⟩
            have n1 : ∀ (b : Bool) ce, newMsgs (β := β) (3 * r + 1) k (if b = true then [(3 * a.round, CItem.copyTo ce)] else []) = [] := by
              intro b ce; cases b <;> rfl
            have n2 : ∀ (b : Bool) ce, newMsgs (β := β) (3 * r + 1) k (if b = true then [(3 * a.round + 2, CItem.copyFrom ce)] else []) = [] := by
              intro b ce; cases b <;> rfl
            rw [n1, n2, List.nil_append, List.append_nil]
            unfold newMsgs
            rw [List.filterMap_cons]
            by_cases h : a.round = r ∧ k' = k
            · rw [if_pos h]; simp only [this, if_pos h, List.filterMap_nil]
            · rw [if_neg h]; simp only [this, if_neg h, List.filterMap_nil]
          rw [e1, newMsgs_append, ih, h2]
          by_cases h : a.round = r ∧ k' = k
          · rw [if_pos h, if_pos h, hsum, if_pos (Or.inl (by rw [h.1, h.2]; exact List.mem_cons_self)), h.1, h.2]
            rw [h.1, h.2] at cs
            rw [if_neg (by simp [cs])]
            rfl
          · rw [if_neg h, if_neg h]
            have hne : (r, k) ≠ (a.round, k') := by
              intro hh; injection hh with h1 h2; exact h ⟨h1.symm, h2.symm⟩
            simp [List.mem_cons, hne]
        · have e1 : combGo e seen off (a :: l) = ((3 * a.round + 1, .act (.comm k' s d c)) ::
              (combGo e ((a.round, k') :: seen) off l).1, (combGo e ((a.round, k') :: seen) off l).2) := by
            rw [combGo]; simp only [hb, if_neg cs, if_neg cl]
          have hnil : oldMsgs a.round k' l = [] := by
            rw [oldMsgs_filter]
            simp only [List.length_cons] at cl
            rw [List.eq_nil_of_length_eq_zero (l := l.filter (CAct.same a.round k')) (by omega)]
            rfl
          have h2 : newMsgs (3 * r + 1) k (combGo e seen off (a :: l)).1 =
              (if a.round = r ∧ k' = k then [c] else []) ++ newMsgs (3 * r + 1) k (combGo e ((a.round, k') :: seen) off l).1 := by
            rw [e1]
            have : (3 * a.round + 1 = 3 * r + 1 ∧ k' = k) ↔ (a.round = r ∧ k' = k) := by
              constructor <;> rintro ⟨h, h'⟩ <;> exact ⟨by omega, h'⟩
            unfold newMsgs
            rw [List.filterMap_cons]
            by_cases h : a.round = r ∧ k' = k
            · simp [h]
            · simp only [this, if_neg h, List.nil_append]
          rw [h2, ih]
          by_cases h : a.round = r ∧ k' = k
          · rw [if_pos h, if_pos h, if_pos (Or.inl (by rw [h.1, h.2]; exact List.mem_cons_self))]
            rw [h.1, h.2] at cs hnil
            rw [if_neg (by simp [cs]), hnil]
            rfl
          · rw [if_neg h, if_neg h]
            have hne : (r, k) ≠ (a.round, k') := by
              intro hh; injection hh with h1 h2; exact h ⟨h1.symm, h2.symm⟩
            simp [List.mem_cons, hne]

theorem combine_new {e : CEnv} {l : List (CAct β)} {n : Nat} {c : List (Nat × CItem β)}
    (hc : combine e l = some (.new n c)) : c = (combGo e [] 0 l).1 ∧ n = (combGo e [] 0 l).2 := by
  simp only [combine] at hc
  split at hc
  · split at hc <;> simp at hc
  · split at hc
    · rename_i h
      injection hc with hc
      injection hc with h1 h2
      exact ⟨h2.symm, h1 ▸ h.2⟩
    · simp at hc

/-- **C22**.  All actions of round `r` for the same peer (or the same collective)
become exactly one message, with the sum of the sizes; no messages are added. -/
theorem C22_one_message (e : CEnv) (l : List (CAct β)) (n : Nat) (c : List (Nat × CItem β))
    (hc : combine e l = some (.new n c)) (r : Nat) (k : CKey) :
    newMsgs (3 * r + 1) k c = if oldMsgs r k l = [] then [] else [(oldMsgs r k l).sum] := by
  rw [(combine_new hc).1, combGo_msgs]
  simp

/-- Nothing to combine: no two actions of the same round have the same key, or
the ones which do are all empty. -/
private theorem combSize_zero (e : CEnv) (l : List (CAct β)) : ∀ seen,
    (∀ a ∈ l, ∀ k s d c, a.body = .comm k s d c → 0 < c) → (combSize e seen l).1 = 0 → (combSize e seen l).2 = 0 := by
  induction l with
  | nil => intro seen _ _; rfl
  | cons a l ih =>
    intro seen hpos h
    have hl : ∀ b ∈ l, ∀ k s d c, b.body = .comm k s d c → 0 < c := fun b hb => hpos b (List.mem_cons_of_mem _ hb)
    cases hb : a.body with
    | other op => simp only [combSize, hb] at h ⊢; exact ih _ hl h
    | comm k s d c =>
      have hc : 0 < c := hpos a List.mem_cons_self k s d c hb
      by_cases cs : (a.round, k) ∈ seen
      · simp only [combSize, hb, if_pos cs] at h ⊢; exact ih _ hl h
      · by_cases cl : (a :: l.filter (CAct.same a.round k)).length > 1
        · simp only [combSize, hb, if_neg cs, if_pos cl] at h
          have : a.count = c := by unfold CAct.count; simp [hb]
          simp [sumCount, this] at h
          omega
        · simp only [combSize, hb, if_neg cs, if_neg cl] at h ⊢; exact ih _ hl h

/-- **C22**.  The asserts of `laik_aseq_combineActions` hold if there are no
empty messages. -/
theorem C22_no_abort (e : CEnv) (l : List (CAct β))
    (hpos : ∀ a ∈ l, ∀ k s d c, a.body = .comm k s d c → 0 < c) : combine e l ≠ none := by
  simp only [combine]
  by_cases h : (combSize e [] l).1 = 0
  · rw [if_pos h, if_pos (combSize_zero e l [] hpos h)]; simp
  · have hs := combGo_size e l [] 0
    rw [if_neg h, if_pos ⟨hs.2, by rw [hs.1]; omega⟩]; simp

/-- Two empty messages to the same process abort the combination (assert in line
1292): the first pass counts the copy ranges, but no buffer space. -/
theorem C22_empty_messages_abort (e : CEnv) :
    combine (β := Nat) e [⟨0, .comm (.send 1) 100 0 0⟩, ⟨0, .comm (.send 1) 200 0 0⟩] = none := by
  simp [combine, combSize, CAct.same, sumCount, CAct.count, CEnv.isIn, CEnv.isOut]

/-- The independence of actions of one round is needed: forwarding a received
element in the same round sends the old value after combining. -/
theorem C22_needs_independence : ∃ (e : CEnv) (inp : CKey → Nat → Nat) (l : List (CAct Nat)) (n : Nat) (c : List (Nat × CItem Nat)),
    l.Pairwise (fun a b => a.round ≤ b.round) ∧ BufFree e inp l 8000 (n * e.elemsize) ∧
    combine e l = some (.new n c) ∧ ∃ c', c'.Perm c ∧ c'.Pairwise (fun y z => y.1 ≤ z.1) ∧ ∃ s,
      (runOld e inp l s).out (.send 1) ≠ (runNew e inp 8000 c' s).out (.send 1) := by
  refine ⟨{ myid := 0, inGroup := fun _ => false, elemsize := 1 }, fun _ _ => 7,
    [⟨0, .comm (.recv 2) 0 100 1⟩, ⟨0, .comm (.send 1) 100 0 1⟩, ⟨0, .comm (.send 1) 200 0 1⟩], 2, _, by decide, ?_, rfl,
    [(0, .copyTo [⟨100, 1, 0⟩, ⟨200, 1, 1⟩]), (1, .act (.comm (.recv 2) 0 100 1)), (1, .rcomm (.send 1) 0 2)], ?_, ?_,
    ⟨fun _ => 0, fun _ => 0, fun _ => []⟩, by decide⟩
  · intro a ha x h1 h2
    simp only [List.mem_cons, List.not_mem_nil, or_false] at ha
    rcases ha with rfl | rfl | rfl <;>
    (refine ⟨?_, ?_⟩
     · simp only [CBody.op, commOp]; omega
     · simp only [CBody.op, commOp, Bool.and_eq_false_iff]
       right
       exact decide_eq_false (by omega))
  · exact List.Perm.swap _ _ _
  · simp

/-! ### Example -/

/-- Process 0: two sends to 1 of 2 and 1 elements, one receive from 1 and one
all-reduction, in the same round; elements have 8 bytes. -/
def combDemo : List (CAct Nat) :=
  [⟨1, .comm (.send 1) 1000 0 2⟩, ⟨1, .comm (.recv 1) 0 2000 3⟩, ⟨1, .comm (.send 1) 1100 0 1⟩,
   ⟨2, .comm (.red (-1) 0) 3000 4000 1⟩]

def combDemoEnv : CEnv := { myid := 0, inGroup := fun _ => false, elemsize := 8 }

example : ∃ c, combine combDemoEnv combDemo = some (.new 3 c) ∧ c.map (·.1) = [3, 4, 4, 7] ∧
    newMsgs 4 (.send 1) c = [3] := ⟨_, rfl, rfl, rfl⟩

private theorem comm_indep {inp : CKey → Nat → Nat} {k k' : CKey} {i o i' o' : Bool} {s d s' d' n n' : Nat}
    (h : o = true → (d + n ≤ s' ∨ s' + n' ≤ d) ∧ (d + n ≤ d' ∨ d' + n' ≤ d))
    (h' : o' = true → (d' + n' ≤ s ∨ s + n ≤ d')) :
    MemIndep (commOp inp k i o s d n) (commOp inp k' i' o' s' d' n') := by
  constructor
  · intro x hx
    simp only [commOp, Bool.and_eq_true, decide_eq_true_eq] at hx ⊢
    have := h hx.1
    constructor
    · omega
    · rw [Bool.and_eq_false_iff]; right; rw [decide_eq_false_iff_not]; omega
  · intro x hx
    simp only [commOp, Bool.and_eq_true, decide_eq_true_eq] at hx ⊢
    have := h' hx.1
    omega

example (inp : CKey → Nat → Nat) : RoundSeq combDemoEnv inp combDemo := by
  unfold RoundSeq combDemo
  simp only [List.pairwise_cons, List.mem_cons, List.not_mem_nil, or_false, forall_eq_or_imp, forall_eq, List.Pairwise.nil, and_true]
  refine ⟨⟨⟨by omega, fun _ => ⟨?_, ?_⟩⟩, ⟨by omega, fun _ => ⟨?_, ?_⟩⟩, by omega, by omega⟩, ⟨⟨by omega, fun _ => ⟨?_, ?_⟩⟩, by omega, by omega⟩, ⟨by omega, by omega⟩, by simp⟩
  · exact comm_indep (by simp [CEnv.isOut]) (by simp [combDemoEnv])
  · left; intro k h; simp only [CBody.op, commOp] at h ⊢; injection h with h; subst h; simp
  · exact comm_indep (by simp [CEnv.isOut]) (by simp [CEnv.isOut])
  · right; exact ⟨_, _, _, _, _, _, _, rfl, rfl⟩
  · exact comm_indep (by simp [combDemoEnv]) (by simp [CEnv.isOut])
  · left; intro k h; simp only [CBody.op, commOp] at h ⊢; injection h with h; subst h; simp

example (inp : CKey → Nat → Nat) : BufFree combDemoEnv inp combDemo 8000 (3 * 8) := by
  intro a ha x h1 h2
  simp only [combDemo, List.mem_cons, List.not_mem_nil, or_false] at ha
  rcases ha with rfl | rfl | rfl | rfl <;>
    (refine ⟨?_, ?_⟩
     · simp only [CBody.op, commOp, combDemoEnv]; omega
     · simp only [CBody.op, commOp, combDemoEnv, Bool.and_eq_false_iff]
       right
       exact decide_eq_false (by omega))

end Laik
