import Verif.Model.TcpResize
import Mathlib.Data.List.Nodup
/-!
# Lemmas on creating the group in a resize
-/

namespace Laik.Rsz

variable {role : Nat → Role} {n : Nat}

theorem mem_olds {l k : Nat} : l ∈ olds role k ↔ l < k ∧ (role l = .stay ∨ role l = .leave) := by
  simp [olds]

theorem mem_members {l k : Nat} : l ∈ members role k ↔ l < k ∧ (role l = .stay ∨ role l = .fresh) := by
  simp [members]

theorem olds_succ (role : Nat → Role) (k : Nat) : olds role (k + 1) =
    olds role k ++ if role k = .stay ∨ role k = .leave then [k] else [] := by
  unfold olds
  rw [List.range_succ, List.filter_append]
  congr 1
  by_cases h : role k = .stay ∨ role k = .leave <;> simp [h]

theorem members_succ (role : Nat → Role) (k : Nat) : members role (k + 1) =
    members role k ++ if role k = .stay ∨ role k = .fresh then [k] else [] := by
  unfold members
  rw [List.range_succ, List.filter_append]
  congr 1
  by_cases h : role k = .stay ∨ role k = .fresh <;> simp [h]

theorem toPar_succ (role : Nat → Role) (k : Nat) : toPar role (k + 1) =
    toPar role k ++ (match role k with
      | .stay => [((olds role k).length : Int)]
      | .fresh => [-1]
      | _ => []) := by
  have hold : ∀ l ∈ members role k, (if role l = .stay then ((olds role (k + 1)).idxOf l : Int) else -1) =
      if role l = .stay then ((olds role k).idxOf l : Int) else -1 := by
    intro l hl
    split
    · rename_i hs
      rw [olds_succ, List.idxOf_append_of_mem (mem_olds.2 ⟨(mem_members.1 hl).1, .inl hs⟩)]
    · rfl
  unfold toPar
  rw [members_succ, List.map_append, List.map_congr_left hold]
  congr 1
  cases hr : role k <;> simp [hr]
  rw [olds_succ]
  have hk : k ∉ olds role k := fun h => by have := (mem_olds.1 h).1; omega
  rw [List.idxOf_append_of_notMem hk]
  simp [hr]

theorem fromPar_succ (role : Nat → Role) (k : Nat) : fromPar role (k + 1) =
    fromPar role k ++ (match role k with
      | .stay => [((members role k).length : Int)]
      | .leave => [-1]
      | _ => []) := by
  have hold : ∀ l ∈ olds role k, (if role l = .stay then ((members role (k + 1)).idxOf l : Int) else -1) =
      if role l = .stay then ((members role k).idxOf l : Int) else -1 := by
    intro l hl
    split
    · rename_i hs
      rw [members_succ, List.idxOf_append_of_mem (mem_members.2 ⟨(mem_olds.1 hl).1, .inl hs⟩)]
    · rfl
  unfold fromPar
  rw [olds_succ, List.map_append, List.map_congr_left hold]
  congr 1
  cases hr : role k <;> simp [hr]
  rw [members_succ]
  have hk : k ∉ members role k := fun h => by have := (mem_members.1 h).1; omega
  rw [List.idxOf_append_of_notMem hk]
  simp [hr]

theorem olds_len_mono (role : Nat → Role) {k n : Nat} (h : k ≤ n) :
    (olds role k).length ≤ (olds role n).length := by
  induction n with
  | zero => have : k = 0 := by omega
            subst this; exact Nat.le_refl _
  | succ n ih =>
    by_cases hk : k = n + 1
    · subst hk; exact Nat.le_refl _
    · rw [olds_succ role n, List.length_append]
      exact Nat.le_trans (ih (by omega)) (Nat.le_add_right _ _)

theorem members_len_mono (role : Nat → Role) {k n : Nat} (h : k ≤ n) :
    (members role k).length ≤ (members role n).length := by
  induction n with
  | zero => have : k = 0 := by omega
            subst this; exact Nat.le_refl _
  | succ n ih =>
    by_cases hk : k = n + 1
    · subst hk; exact Nat.le_refl _
    · rw [members_succ role n, List.length_append]
      exact Nat.le_trans (ih (by omega)) (Nat.le_add_right _ _)

theorem olds_getElem? {k : Nat} (hk : k < n) (hr : role k = .stay ∨ role k = .leave) :
    (olds role n)[(olds role k).length]? = some k := by
  induction n with
  | zero => omega
  | succ n ih =>
    rw [olds_succ]
    by_cases h : k = n
    · subst h
      rw [List.getElem?_append_right (Nat.le_refl _)]
      simp [hr]
    · have := ih (by omega)
      rw [List.getElem?_append_left]
      · exact this
      · obtain ⟨h1, -⟩ := List.getElem?_eq_some_iff.1 this
        exact h1

/-- Appending one entry to an array. -/
theorem range_push {f g : Nat → Int} {i : Nat} {L : List Int} {v : Int}
    (h : (List.range i).map f = L) (h1 : ∀ j < i, g j = f j) (h2 : g i = v) :
    (List.range (i + 1)).map g = L ++ [v] := by
  rw [List.range_succ, List.map_append, ← h]
  congr 1
  · apply List.map_congr_left
    intro j hj
    exact h1 j (List.mem_range.1 hj)
  · simp [h2]

theorem range_keep {f g : Nat → Int} {i : Nat} {L : List Int}
    (h : (List.range i).map f = L) (h1 : ∀ j < i, g j = f j) : (List.range i).map g = L := by
  rw [← h]
  apply List.map_congr_left
  intro j hj
  exact h1 j (List.mem_range.1 hj)

/-- What the loop has done for the LIDs below `k`. -/
structure BInv (role : Nat → Role) (st0 new : Nat → PS) (ms : Nat) (w : Option Grp) (k : Nat)
    (b : Bld) : Prop where
  i1 : b.i1 = (olds role k).length
  i2 : b.i2 = (members role k).length
  st : ∀ l, b.st l = if l < k then new l else st0 l
  loc : (List.range b.i2).map b.mem = (members role k).map (Int.ofNat ·)
  top : (List.range b.i2).map (fun j => b.mem (2 * ms + j)) = toPar role k
  frp : (List.range b.i1).map (fun j => b.mem (ms + j)) = fromPar role k
  par : w = none → (List.range b.i1).map b.par = (olds role k).map (Int.ofNat ·)

theorem wr_ok {ms k : Nat} {v : Int} {mem : Nat → Int} (h : k < 5 * ms) :
    wr ms k v mem = some (upd mem k v) := by
  unfold wr; rw [if_pos h]

theorem bldStep_spec {cls : PS → Option (Role × PS)} {w : Option Grp} {ms : Nat} {st0 new : Nat → PS}
    (hcls : ∀ l < n, cls (st0 l) = some (role l, new l)) (hgone : ∀ l < n, role l = .gone → new l = st0 l)
    (hw : ∀ g, w = some g → g.locs = (olds role n).map (Int.ofNat ·))
    (ho : (olds role n).length ≤ ms) (hm : (members role n).length ≤ ms)
    {k : Nat} (hk : k < n) {b : Bld} (hb : BInv role st0 new ms w k b) :
    ∃ b', bldStep cls w ms b k = some b' ∧ BInv role st0 new ms w (k + 1) b' := by
  have hst : b.st k = st0 k := by rw [hb.st, if_neg (by omega)]
  have hc : cls (b.st k) = some (role k, new k) := by rw [hst]; exact hcls k hk
  have hmo := olds_len_mono role (show k + 1 ≤ n from hk)
  have hmm := members_len_mono role (show k + 1 ≤ n from hk)
  have hchk : ∀ (b1 : Bld), b1.i1 = b.i1 → (role k = .stay ∨ role k = .leave) →
      chkOld w b1 k = some { b1 with par := if w = none then upd b1.par b1.i1 k else b1.par } := by
    intro b1 h1 hr
    cases hwc : w with
    | none => simp [chkOld]
    | some g =>
      have hg := hw g hwc
      have hge := olds_getElem? hk hr
      have hlt : (olds role k).length < (olds role n).length := (List.getElem?_eq_some_iff.1 hge).1
      have hlen : g.size = (olds role n).length := by
        have := congrArg List.length hg
        simpa [Grp.locs] using this
      have : g.loc b1.i1 = (k : Int) := by
        have h3 := congrArg (fun L => L[(olds role k).length]?) hg
        simp only [Grp.locs, List.getElem?_map, hge, Option.map_some] at h3
        rw [List.getElem?_range (by omega), Option.map_some] at h3
        rw [h1, hb.i1]
        exact Option.some.inj h3
      simp [chkOld, this]
  have hst' : ∀ l, upd b.st k (new k) l = if l < k + 1 then new l else st0 l := by
    intro l
    unfold upd
    by_cases hl : l = k
    · subst hl; simp
    · rw [if_neg hl, hb.st]
      by_cases h2 : l < k
      · rw [if_pos h2, if_pos (by omega)]
      · rw [if_neg h2, if_neg (by omega)]
  have e1 := olds_succ role k
  have e2 := members_succ role k
  have e3 := toPar_succ role k
  have e4 := fromPar_succ role k
  cases hr : role k with
  | gone =>
    simp [hr] at e1 e2 e3 e4
    refine ⟨b, ?_, ?_⟩
    · simp [bldStep, hc, hr]
    · constructor
      · rw [e1]; exact hb.i1
      · rw [e2]; exact hb.i2
      · intro l
        rw [← hst' l]
        unfold upd
        split
        · rename_i hl; subst hl; rw [hst, hgone _ hk hr]
        · rfl
      · rw [e2]; exact hb.loc
      · rw [e3]; exact hb.top
      · rw [e4]; exact hb.frp
      · rw [e1]; exact hb.par
  | stay =>
    simp [hr] at e1 e2 e3 e4
    rw [e1, List.length_append, List.length_singleton] at hmo
    rw [e2, List.length_append, List.length_singleton] at hmm
    have h1 := hb.i1
    have h2 := hb.i2
    have hm1 : b.i1 < ms := by omega
    have hm2 : b.i2 < ms := by omega
    refine ⟨⟨upd b.st k (new k), upd (upd (upd b.mem b.i2 k) (2 * ms + b.i2) b.i1) (ms + b.i1) b.i2,
      (if w = none then upd b.par b.i1 k else b.par), b.i1 + 1, b.i2 + 1⟩, ?_, ?_⟩
    · simp only [bldStep, hc, hr]
      rw [hchk { b with st := upd b.st k (new k) } rfl (.inl hr)]
      simp only [Option.bind_eq_bind, Option.bind_some]
      rw [wr_ok (by omega), Option.bind_some, wr_ok (by omega), Option.bind_some, wr_ok (by omega),
        Option.bind_some]
    · constructor
      · rw [e1, List.length_append]; simp only [List.length_singleton]; omega
      · rw [e2, List.length_append]; simp only [List.length_singleton]; omega
      · exact hst'
      · rw [e2, List.map_append]
        refine range_push hb.loc ?_ ?_
        · intro j hj; simp only [upd]
          rw [if_neg (by omega), if_neg (by omega), if_neg (by omega)]
        · simp only [upd]
          rw [if_neg (by omega), if_neg (by omega), if_pos trivial]; rfl
      · rw [e3]
        refine range_push hb.top ?_ ?_
        · intro j hj; simp only [upd]
          rw [if_neg (by omega), if_neg (by omega), if_neg (by omega)]
        · simp only [upd]
          rw [if_neg (by omega), if_pos trivial, h1]
      · rw [e4]
        refine range_push hb.frp ?_ ?_
        · intro j hj; simp only [upd]
          rw [if_neg (by omega), if_neg (by omega), if_neg (by omega)]
        · simp only [upd]
          rw [if_pos trivial, h2]
      · intro hn
        rw [e1, List.map_append]
        refine range_push (hb.par hn) ?_ ?_
        · intro j hj; simp only [hn, if_true, upd]; rw [if_neg (by omega)]
        · simp only [hn, if_true, upd]; rfl
  | fresh =>
    simp [hr] at e1 e2 e3 e4
    rw [e2, List.length_append, List.length_singleton] at hmm
    rw [e1] at hmo
    have h1 := hb.i1
    have h2 := hb.i2
    have hm1 : b.i1 ≤ ms := by omega
    have hm2 : b.i2 < ms := by omega
    refine ⟨⟨upd b.st k (new k), upd (upd b.mem b.i2 k) (2 * ms + b.i2) (-1), b.par, b.i1, b.i2 + 1⟩, ?_, ?_⟩
    · simp only [bldStep, hc, hr]
      simp only [Option.bind_eq_bind]
      rw [wr_ok (by omega), Option.bind_some, wr_ok (by omega), Option.bind_some]
    · constructor
      · rw [e1]; exact h1
      · rw [e2, List.length_append]; simp only [List.length_singleton]; omega
      · exact hst'
      · rw [e2, List.map_append]
        refine range_push hb.loc ?_ ?_
        · intro j hj; simp only [upd]
          rw [if_neg (by omega), if_neg (by omega)]
        · simp only [upd]
          rw [if_neg (by omega), if_pos trivial]; rfl
      · rw [e3]
        refine range_push hb.top ?_ ?_
        · intro j hj; simp only [upd]
          rw [if_neg (by omega), if_neg (by omega)]
        · simp only [upd, if_true]
      · rw [e4]
        refine range_keep hb.frp ?_
        intro j hj; dsimp only at hj; simp only [upd]
        rw [if_neg (by omega), if_neg (by omega)]
      · intro hn
        rw [e1]
        exact hb.par hn
  | leave =>
    simp [hr] at e1 e2 e3 e4
    rw [e1, List.length_append, List.length_singleton] at hmo
    rw [e2] at hmm
    have h1 := hb.i1
    have h2 := hb.i2
    have hm1 : b.i1 < ms := by omega
    have hm2 : b.i2 ≤ ms := by omega
    refine ⟨⟨upd b.st k (new k), upd b.mem (ms + b.i1) (-1), (if w = none then upd b.par b.i1 k else b.par), b.i1 + 1, b.i2⟩, ?_, ?_⟩
    · simp only [bldStep, hc, hr]
      rw [hchk { b with st := upd b.st k (new k) } rfl (.inr hr)]
      simp only [Option.bind_eq_bind, Option.bind_some]
      rw [wr_ok (by omega), Option.bind_some]
    · constructor
      · rw [e1, List.length_append]; simp only [List.length_singleton]; omega
      · rw [e2]; exact h2
      · exact hst'
      · rw [e2]
        refine range_keep hb.loc ?_
        intro j hj; dsimp only at hj; simp only [upd]
        rw [if_neg (by omega)]
      · rw [e3]
        refine range_keep hb.top ?_
        intro j hj; dsimp only at hj; simp only [upd]
        rw [if_neg (by omega)]
      · rw [e4]
        refine range_push hb.frp ?_ ?_
        · intro j hj; simp only [upd]
          rw [if_neg (by omega)]
        · simp only [upd, if_true]
      · intro hn
        rw [e1, List.map_append]
        refine range_push (hb.par hn) ?_ ?_
        · intro j hj; simp only [hn, if_true, upd]; rw [if_neg (by omega)]
        · simp only [hn, if_true, upd]; rfl

theorem build_append {cls : PS → Option (Role × PS)} {w : Option Grp} {ms : Nat} :
    ∀ (ls : List Nat) (b : Bld) (l : Nat),
    build cls w ms b (ls ++ [l]) = (build cls w ms b ls).bind fun b' => bldStep cls w ms b' l := by
  intro ls
  induction ls with
  | nil => intro b l; simp only [List.nil_append, build, Option.bind_some]; cases bldStep cls w ms b l <;> rfl
  | cons a ls ih =>
    intro b l
    simp only [List.cons_append, build]
    cases bldStep cls w ms b a with
    | none => rfl
    | some b' => simp only [Option.bind_some]; exact ih b' l

/-- The loop over all LIDs. -/
theorem build_spec {cls : PS → Option (Role × PS)} {w : Option Grp} {ms : Nat} {st0 new : Nat → PS}
    (hcls : ∀ l < n, cls (st0 l) = some (role l, new l)) (hgone : ∀ l < n, role l = .gone → new l = st0 l)
    (hw : ∀ g, w = some g → g.locs = (olds role n).map (Int.ofNat ·))
    (ho : (olds role n).length ≤ ms) (hm : (members role n).length ≤ ms) (junk par : Nat → Int) :
    ∀ k ≤ n, ∃ b, build cls w ms ⟨st0, junk, par, 0, 0⟩ (List.range k) = some b ∧
      BInv role st0 new ms w k b := by
  intro k
  induction k with
  | zero =>
    intro _
    refine ⟨_, rfl, ?_⟩
    constructor <;> simp [olds, members, toPar, fromPar]
  | succ k ih =>
    intro hk
    obtain ⟨b, h1, h2⟩ := ih (by omega)
    obtain ⟨b', h3, h4⟩ := bldStep_spec hcls hgone hw ho hm (by omega) h2
    refine ⟨b', ?_, h4⟩
    rw [List.range_succ, build_append, h1]
    exact h3

end Laik.Rsz
