import Verif.Spec.Async
import Verif.Model.ActionSort
/-!
# Model of the conversion to non-blocking communication (`src/backend-mpi.c` 214-272)
-/

namespace Laik

variable {K β : Type}

/-- Number of requests needed, src/backend-mpi.c 222-231. -/
def reqCount (l : List (Act (NbAct K β))) : Nat :=
  (l.filter (fun a => match a.content with | .other _ => false | _ => true)).length

/-- `maxround`, src/backend-mpi.c 223-227. -/
def maxRound (l : List (Act (NbAct K β))) : Nat := l.foldl (fun m a => if a.round > m then a.round else m) 0

/-- Loop of `laik_mpi_asyncSendRecv`, src/backend-mpi.c 243-267; `id` is
`req_id`, `mr` is `maxround`.  `NbAct.other` is used for all actions which are
not `BufSend`/`BufRecv`; these are copied (`laik_aseq_add`, src/action.c
1061-1076).  Addresses are numbers, sizes are in bytes.  The new actions are
neither sends nor receives for later sorting by rounds, which does not look at
the kind. -/
def asyncGo (mr : Nat) (id : Nat) : List (Act (NbAct K β)) → List (Act (NItem K β))
  | [] => []
  | ⟨r, k, c⟩ :: l =>
    match c with
    | .send p a n => ⟨r + 1, .other, .isend id p a n⟩ :: ⟨mr + 2, .other, .wait id⟩ :: asyncGo mr (id + 1) l
    | .recv p a n => ⟨0, .other, .irecv id p a n⟩ :: ⟨r + 1, .other, .wait id⟩ :: asyncGo mr (id + 1) l
    | .other o => ⟨r + 1, k, .other o⟩ :: asyncGo mr id l

/-- `laik_mpi_asyncSendRecv`, src/backend-mpi.c 217-272, for sequences with
something to convert (`false` is returned otherwise, 229). -/
def asyncSendRecv (l : List (Act (NbAct K β))) : List (Act (NItem K β)) :=
  ⟨0, .other, .req (reqCount l)⟩ :: asyncGo (maxRound l) 0 l

/-! ### Form of the result after sorting by rounds -/

/-- Receives started. -/
def irecvsOf (id : Nat) : List (NbAct K β) → List (NItem K β)
  | [] => []
  | .send _ _ _ :: l => irecvsOf (id + 1) l
  | .recv p a n :: l => .irecv id p a n :: irecvsOf (id + 1) l
  | .other _ :: l => irecvsOf id l

/-- Actions at the original positions. -/
def midsOf (id : Nat) : List (NbAct K β) → List (NItem K β)
  | [] => []
  | .send p a n :: l => .isend id p a n :: midsOf (id + 1) l
  | .recv _ _ _ :: l => .wait id :: midsOf (id + 1) l
  | .other o :: l => .other o :: midsOf id l

/-- Waits at the end. -/
def swaitsOf (id : Nat) : List (NbAct K β) → List (NItem K β)
  | [] => []
  | .send _ _ _ :: l => .wait id :: swaitsOf (id + 1) l
  | .recv _ _ _ :: l => swaitsOf (id + 1) l
  | .other _ :: l => swaitsOf id l

/-! ### Sorting by rounds -/

theorem cmpRounds_le {α : Type} (a b : Act α × Nat) :
    cmpRounds a b ≤ 0 ↔ a.1.round < b.1.round ∨ a.1.round = b.1.round ∧ a.2 ≤ b.2 := by
  unfold cmpRounds
  split <;> omega

/-- Actions in the order of their rounds. -/
def byRounds {α : Type} (n : Nat) (l : List (Act α × Nat)) : List (Act α × Nat) :=
  (List.range n).flatMap (fun k => l.filter (fun a => a.1.round == k))

theorem byRounds_perm {α : Type} (l : List (Act α × Nat)) : ∀ n, (∀ a ∈ l, a.1.round < n) → (byRounds n l).Perm l := by
  have key : ∀ n, (byRounds n l).Perm (l.filter (fun a => decide (a.1.round < n))) := by
    intro n
    induction n with
    | zero => simp [byRounds]
    | succ n ih =>
      unfold byRounds at ih ⊢
      rw [List.range_succ, List.flatMap_append]
      simp only [List.flatMap_cons, List.flatMap_nil, List.append_nil]
      refine (ih.append_right _).trans ?_
      have h := List.filter_append_perm (fun a : Act α × Nat => decide (a.1.round < n))
        (l.filter (fun a => decide (a.1.round < n + 1)))
      rw [List.filter_filter, List.filter_filter] at h
      refine List.Perm.trans (List.Perm.of_eq ?_) h
      congr 1
      · apply List.filter_congr
        intro a _
        by_cases c : a.1.round < n
        · simp [c]; omega
        · simp [c]
      · apply List.filter_congr
        intro a _
        by_cases c : a.1.round = n
        · simp [c]
        · simp only [beq_eq_false_iff_ne.2 c]
          by_cases c' : a.1.round < n
          · simp [c']
          · simp [c']; omega
  intro n h
  refine (key n).trans (List.Perm.of_eq ?_)
  rw [List.filter_eq_self]
  simpa using fun a b hab => h (a, b) hab

theorem byRounds_sorted {α : Type} (l : List (Act α × Nat)) (hl : l.Pairwise (fun a b => a.2 ≤ b.2)) (n : Nat) :
    (byRounds n l).Pairwise (fun a b => cmpRounds a b ≤ 0) := by
  unfold byRounds
  rw [List.pairwise_flatMap]
  constructor
  · intro k _
    have := hl.filter (fun a => a.1.round == k)
    refine List.Pairwise.imp_of_mem ?_ this
    intro a b ha hb hab
    rw [List.mem_filter, beq_iff_eq] at ha hb
    rw [cmpRounds_le]
    omega
  · refine List.pairwise_lt_range.imp ?_
    intro i j hij a ha b hb
    rw [List.mem_filter, beq_iff_eq] at ha hb
    rw [cmpRounds_le]
    omega

theorem zipIdx_pairwise {α : Type} (l : List α) (k : Nat) : (l.zipIdx k).Pairwise (fun a b => a.2 ≤ b.2) := by
  induction l generalizing k with
  | nil => simp
  | cons a l ih =>
    rw [List.zipIdx_cons, List.pairwise_cons]
    refine ⟨?_, ih (k + 1)⟩
    rintro ⟨b, i⟩ hb
    have := (List.mem_zipIdx hb).1
    simp only
    omega

theorem byRounds_fst {α : Type} (l : List (Act α)) (k n : Nat) :
    (byRounds n (l.zipIdx k)).map (·.1) = (List.range n).flatMap (fun k => l.filter (fun a => a.round == k)) := by
  unfold byRounds
  rw [List.map_flatMap]
  congr 1
  funext j
  have : ∀ k, ((l.zipIdx k).filter (fun a => a.1.round == j)).map (·.1) = l.filter (fun a => a.round == j) := by
    induction l with
    | nil => simp
    | cons a l ih =>
      intro k
      rw [List.zipIdx_cons, List.filter_cons, List.filter_cons]
      split
      · simp [ih]
      · exact ih _
  exact this k

theorem ptrSort_rounds {α : Type} {l : List (Act α)} {s : List (Act α × Nat)} (h : IsPtrSort cmpRounds l s) (n : Nat)
    (hn : ∀ a ∈ l, a.round < n) :
    s.map (·.1) = (List.range n).flatMap (fun k => l.filter (fun a => a.round == k)) := by
  rw [← byRounds_fst l 0 n]
  congr 1
  have hb := byRounds_perm l.zipIdx n (by
    rintro ⟨a, i⟩ ha
    exact hn a (List.mem_zipIdx' ha |>.2 ▸ List.getElem_mem _))
  refine List.Perm.eq_of_pairwise ?_ h.2 (byRounds_sorted _ (zipIdx_pairwise l 0) n) (h.1.trans hb.symm)
  rintro ⟨a, i⟩ ⟨b, j⟩ ha hb' h1 h2
  rw [cmpRounds_le] at h1 h2
  have hij : i = j := by
    simp only at h1 h2
    omega
  subst hij
  have e1 := (List.mem_zipIdx' (h.1.subset ha)).2
  have e2 := (List.mem_zipIdx' (hb.subset hb')).2
  simp_all

theorem ptrSort_rounds_exists {α : Type} (l : List (Act α)) : ∃ s, IsPtrSort cmpRounds l s := by
  have key : ∀ l : List (Act α), ∃ n, ∀ a ∈ l, a.round < n := by
    intro l
    induction l with
    | nil => exact ⟨0, by simp⟩
    | cons a l ih =>
      obtain ⟨n, hn⟩ := ih
      refine ⟨n + a.round + 1, ?_⟩
      intro b hb
      rcases List.mem_cons.1 hb with rfl | hb
      · omega
      · have := hn b hb; omega
  obtain ⟨n, hn⟩ := key l
  refine ⟨byRounds n l.zipIdx, byRounds_perm _ _ ?_, byRounds_sorted _ (zipIdx_pairwise l 0) n⟩
  rintro ⟨a, i⟩ ha
  exact hn a (List.mem_zipIdx' ha |>.2 ▸ List.getElem_mem _)

theorem flatMap_sorted {α : Type} (l : List (Act α)) (hl : l.Pairwise (fun a b => a.round ≤ b.round)) (n : Nat)
    (hn : ∀ a ∈ l, a.round < n) : (List.range n).flatMap (fun k => l.filter (fun a => a.round == k)) = l := by
  have h : IsPtrSort cmpRounds l l.zipIdx := by
    refine ⟨List.Perm.refl _, ?_⟩
    have h1 : (l.zipIdx).Pairwise (fun a b => a.1.round ≤ b.1.round) := by
      have := List.pairwise_map (f := Prod.fst) (l := l.zipIdx) (R := fun a b : Act α => a.round ≤ b.round)
      rw [List.zipIdx_map_fst] at this
      exact this.1 hl
    refine (h1.and (zipIdx_pairwise l 0)).imp ?_
    intro a b hab
    rw [cmpRounds_le]
    omega
  have := ptrSort_rounds h n hn
  rw [← this, List.zipIdx_map_fst]

/-- Actions of the loop at their original positions. -/
def midAct (id : Nat) : List (Act (NbAct K β)) → List (Act (NItem K β))
  | [] => []
  | ⟨r, k, c⟩ :: l =>
    match c with
    | .send p a n => ⟨r + 1, .other, .isend id p a n⟩ :: midAct (id + 1) l
    | .recv _ _ _ => ⟨r + 1, .other, .wait id⟩ :: midAct (id + 1) l
    | .other o => ⟨r + 1, k, .other o⟩ :: midAct id l

theorem midAct_content (l : List (Act (NbAct K β))) : ∀ id, (midAct id l).map (·.content) = midsOf id (l.map (·.content)) := by
  induction l with
  | nil => intro id; rfl
  | cons a l ih =>
    obtain ⟨r, k, c⟩ := a
    intro id
    cases c <;> simp [midAct, midsOf, ih]

theorem midAct_mem (l : List (Act (NbAct K β))) : ∀ id, ∀ b ∈ midAct id l, ∃ a ∈ l, b.round = a.round + 1 := by
  induction l with
  | nil => intro id b hb; simp [midAct] at hb
  | cons a l ih =>
    obtain ⟨r, k, c⟩ := a
    intro id b hb
    cases c <;>
    · simp only [midAct, List.mem_cons] at hb
      rcases hb with rfl | hb
      · exact ⟨_, List.mem_cons_self, rfl⟩
      · obtain ⟨a, ha, e⟩ := ih _ b hb
        exact ⟨a, List.mem_cons_of_mem _ ha, e⟩

theorem midAct_sorted (l : List (Act (NbAct K β))) (hl : l.Pairwise (fun a b => a.round ≤ b.round)) :
    ∀ id, (midAct id l).Pairwise (fun a b => a.round ≤ b.round) := by
  induction l with
  | nil => intro id; simp [midAct]
  | cons a l ih =>
    obtain ⟨r, k, c⟩ := a
    rw [List.pairwise_cons] at hl
    intro id
    cases c <;>
    · simp only [midAct, List.pairwise_cons]
      refine ⟨?_, ih hl.2 _⟩
      intro b hb
      obtain ⟨a, ha, e⟩ := midAct_mem l _ b hb
      have := hl.1 a ha
      simp only at this
      omega

theorem asyncGo_mid (mr : Nat) (l : List (Act (NbAct K β))) (k : Nat) (hk : k ≤ mr) :
    ∀ id, (asyncGo mr id l).filter (fun a => a.round == k + 1) = (midAct id l).filter (fun a => a.round == k + 1) := by
  induction l with
  | nil => intro id; rfl
  | cons a l ih =>
    obtain ⟨r, kd, c⟩ := a
    intro id
    have : ¬ mr + 1 = k := by omega
    cases c <;> simp [asyncGo, midAct, List.filter_cons, ih, this]

theorem asyncGo_zero (mr : Nat) (l : List (Act (NbAct K β))) :
    ∀ id, ((asyncGo mr id l).filter (fun a => a.round == 0)).map (·.content) = irecvsOf id (l.map (·.content)) := by
  induction l with
  | nil => intro id; rfl
  | cons a l ih =>
    obtain ⟨r, kd, c⟩ := a
    intro id
    cases c <;> simp [asyncGo, irecvsOf, List.filter_cons, ih]

theorem asyncGo_last (mr : Nat) (l : List (Act (NbAct K β))) (h : ∀ a ∈ l, a.round ≤ mr) :
    ∀ id, ((asyncGo mr id l).filter (fun a => a.round == mr + 2)).map (·.content) = swaitsOf id (l.map (·.content)) := by
  induction l with
  | nil => intro id; rfl
  | cons a l ih =>
    obtain ⟨r, kd, c⟩ := a
    intro id
    have hr : ¬ r = mr + 1 := by
      have := h _ List.mem_cons_self
      simp only at this
      omega
    have ih := ih (fun a ha => h a (List.mem_cons_of_mem _ ha))
    cases c <;> simp [asyncGo, swaitsOf, List.filter_cons, ih, hr]

theorem asyncGo_round (mr : Nat) (l : List (Act (NbAct K β))) (h : ∀ a ∈ l, a.round ≤ mr) :
    ∀ id, ∀ b ∈ asyncGo mr id l, b.round < mr + 3 := by
  induction l with
  | nil => intro id b hb; simp [asyncGo] at hb
  | cons a l ih =>
    obtain ⟨r, kd, c⟩ := a
    intro id b hb
    have hr := h _ List.mem_cons_self
    simp only at hr
    have ih := ih (fun a ha => h a (List.mem_cons_of_mem _ ha))
    cases c <;>
    · simp only [asyncGo, List.mem_cons] at hb
      rcases hb with rfl | hb
      · simp only; omega
      · first
        | exact ih _ b hb
        | (rcases hb with rfl | hb
           · simp only; omega
           · exact ih _ b hb)

theorem maxRound_le (l : List (Act (NbAct K β))) : ∀ a ∈ l, a.round ≤ maxRound l := by
  have key : ∀ (l : List (Act (NbAct K β))) m,
      m ≤ l.foldl (fun m a => if a.round > m then a.round else m) m ∧
      ∀ a ∈ l, a.round ≤ l.foldl (fun m a => if a.round > m then a.round else m) m := by
    intro l
    induction l with
    | nil => intro m; simp
    | cons b l ih =>
      intro m
      rw [List.foldl_cons]
      have := ih (if b.round > m then b.round else m)
      constructor
      · have := this.1
        split at this <;> rename_i c <;> simp only [if_pos, if_neg, c, not_false_eq_true] at this ⊢ <;> omega
      · intro a ha
        rcases List.mem_cons.1 ha with rfl | ha
        · have := this.1
          split at this <;> rename_i c <;> simp only [if_pos, if_neg, c, not_false_eq_true] at this ⊢ <;> omega
        · exact this.2 a ha
  exact (key l 0).2

/-- The converted sequence after sorting by rounds. -/
theorem async_form (l : List (Act (NbAct K β))) (hl : l.Pairwise (fun a b => a.round ≤ b.round))
    (s : List (Act (NItem K β) × Nat)) (h : IsPtrSort cmpRounds (asyncSendRecv l) s) :
    s.map (·.1.content) = .req (reqCount l) :: (irecvsOf 0 (l.map (·.content)) ++ midsOf 0 (l.map (·.content)) ++
      swaitsOf 0 (l.map (·.content))) := by
  have hm := maxRound_le l
  have h1 := ptrSort_rounds h (maxRound l + 3) (by
    intro a ha
    rcases List.mem_cons.1 ha with rfl | ha
    · simp only; omega
    · exact asyncGo_round _ l hm 0 a ha)
  have h2 : s.map (·.1.content) = (s.map (·.1)).map (·.content) := by rw [List.map_map]; rfl
  rw [h2, h1, List.range_succ, List.range_succ_eq_map, List.flatMap_append, List.flatMap_cons, List.flatMap_map]
  have e0 : (asyncSendRecv l).filter (fun a => a.round == 0) =
      ⟨0, .other, .req (reqCount l)⟩ :: (asyncGo (maxRound l) 0 l).filter (fun a => a.round == 0) := by
    simp [asyncSendRecv]
  have e1 : ∀ k, (asyncSendRecv l).filter (fun a => a.round == k + 1) =
      (asyncGo (maxRound l) 0 l).filter (fun a => a.round == k + 1) := by
    intro k; simp [asyncSendRecv]
  have e2 : (List.range (maxRound l + 1)).flatMap (fun k => (asyncSendRecv l).filter (fun a => a.round == k + 1)) =
      midAct 0 l := by
    have h3 := flatMap_sorted (midAct 0 l) (midAct_sorted l hl 0) (maxRound l + 2) (by
      intro b hb
      obtain ⟨a, ha, e⟩ := midAct_mem l _ b hb
      have := hm a ha
      omega)
    rw [List.range_succ_eq_map, List.flatMap_cons, List.flatMap_map] at h3
    have h4 : (midAct 0 l).filter (fun a => a.round == 0) = [] := by
      rw [List.filter_eq_nil_iff]
      intro b hb
      obtain ⟨a, ha, e⟩ := midAct_mem l _ b hb
      simp [e]
    rw [h4, List.nil_append] at h3
    refine Eq.trans ?_ h3
    rw [List.flatMap, List.flatMap]
    congr 1
    apply List.map_congr_left
    intro k hk
    rw [List.mem_range] at hk
    rw [e1, asyncGo_mid _ _ _ (by omega)]
  have e3 : (List.range (maxRound l + 1)).flatMap
      (fun a => List.filter (fun b => b.round == a.succ) (asyncSendRecv l)) = midAct 0 l := e2
  rw [e3]
  simp only [List.flatMap_cons, List.flatMap_nil, List.append_nil, List.map_append]
  rw [e0, e1, List.map_cons, asyncGo_zero, midAct_content, asyncGo_last _ _ hm]
  simp

end Laik
