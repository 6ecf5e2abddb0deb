import Verif.Model.Reassign
import Verif.Props.Migrate
import Verif.Props.Partitioner
/-!
# C16: reassign partitioner
-/

namespace Laik

/-- Specification: what must happen to a range of the old partitioning when the
processes in `list` are removed: kept unchanged if its process stays, otherwise
split into disjoint ranges covering it exactly, all for remaining processes. -/
def ReassignedTo (size : Nat) (list : List Nat) (r : TR) (cs : List Call) : Prop :=
  if r.task ∈ list then
    ExactCover .d1 r.box cs ∧ ∀ c ∈ cs, c.task < size ∧ c.task ∉ list ∧
      r.box.lo.x ≤ c.box.lo.x ∧ c.box.lo.x < c.box.hi.x ∧ c.box.hi.x ≤ r.box.hi.x
  else cs = [⟨r.task, r.box, 0⟩]

theorem reGo_spec {W : Type} (A : ReArith W) (oldg newg : Group) (gid : Nat) (list : List Nat)
    (hsh : shrink oldg gid list = some newg) (hne : newg.loc ≠ []) (old : List TR)
    (ht : ∀ r ∈ old, r.task < oldg.loc.length) (w : W) (cur : Nat) (hc : cur < newg.loc.length) :
    ∃ chunks : List (List Call), reGo A newg w cur old = some chunks.flatten ∧
      List.Forall₂ (ReassignedTo oldg.loc.length list) old chunks := by
  obtain ⟨t1, t2, t3, t4, t5, _⟩ := C29_tables oldg newg gid list hsh
  have hgood : ∀ c, c < newg.loc.length → ∃ t, (newg.toParent[c]?).join = some t ∧
      (t < oldg.loc.length ∧ t ∉ list) := by
    intro c hc
    obtain ⟨_, _, _, hto⟩ := C29_members oldg newg gid list hsh
    rw [← t2] at hc
    have hc' := hc
    rw [hto, List.length_map] at hc'
    have hm := List.getElem_mem hc'
    rw [List.mem_filter, List.mem_range] at hm
    refine ⟨_, ?_, hm.1, by simpa using hm.2⟩
    rw [hto, List.getElem?_map, List.getElem?_eq_getElem hc']; rfl
  induction old generalizing w cur with
  | nil => exact ⟨[], rfl, List.Forall₂.nil⟩
  | cons r rs ih =>
    have hr := ht r List.mem_cons_self
    have hr' : r.task < newg.fromParent.length := by omega
    rw [reGo]
    cases hf : newg.fromParent[r.task]? with
    | none => rw [List.getElem?_eq_none_iff] at hf; omega
    | some o =>
      have hmem := t3 r.task hr
      rw [hf] at hmem
      cases o with
      | some j =>
        have hnm : r.task ∉ list := fun h => by cases hmem.2 h
        obtain ⟨ch, e, hfo⟩ := ih (fun r hr => ht r (List.mem_cons_of_mem _ hr)) w cur hc
        refine ⟨[⟨r.task, r.box, 0⟩] :: ch, by simp [e], List.Forall₂.cons ?_ hfo⟩
        unfold ReassignedTo; rw [if_neg hnm]
      | none =>
        have hm : r.task ∈ list := hmem.1 rfl
        obtain ⟨w', cur', l, e, h1, h2, h3⟩ := reLoop_spec A newg.loc.length _
          (fun t => t < oldg.loc.length ∧ t ∉ list) hgood
          (r.box.hi.x - r.box.lo.x).toNat r.box.lo.x r.box.lo.x w cur (Int.le_refl _) hc
        simp only
        rw [e]
        obtain ⟨ch, e2, hfo⟩ := ih (fun r hr => ht r (List.mem_cons_of_mem _ hr)) w' cur' h1
        refine ⟨l :: ch, by simp [e2], List.Forall₂.cons ?_ hfo⟩
        unfold ReassignedTo
        rw [if_pos hm]
        have hpts : ∀ p, Mem .d1 r.box p ↔
            Mem .d1 (seg r.box.lo.x (r.box.lo.x + (r.box.hi.x - r.box.lo.x).toNat)) p := by
          intro p; rw [mem_d1, mem_seg]; omega
        refine ⟨⟨fun p => by rw [hpts]; exact h2.cover p, h2.disjoint⟩, fun c hc' => ?_⟩
        obtain ⟨⟨g1, g1'⟩, g2, g3, g4, g5⟩ := h3 c hc'
        refine ⟨g1, g1', ?_⟩; omega

/-- C16, main statement: for any weights and any (non-empty) shrunk group, the
partitioner finishes, every range of a remaining process is kept as it is, and
every range of a removed process is split exactly among remaining processes. -/
theorem C16_reassign {W : Type} (A : ReArith W) (oldg newg : Group) (gid : Nat) (list : List Nat)
    (hsh : shrink oldg gid list = some newg) (hne : newg.loc ≠ []) (old : List TR)
    (ht : ∀ r ∈ old, r.task < oldg.loc.length) :
    ∃ chunks : List (List Call), reassignCalls A .d1 oldg newg old = some chunks.flatten ∧
      List.Forall₂ (ReassignedTo oldg.loc.length list) old chunks := by
  unfold reassignCalls
  rw [if_pos ⟨(C29_members oldg newg gid list hsh).2.1, rfl⟩]
  exact reGo_spec A oldg newg gid list hsh hne old ht A.zero 0 (by
    have := List.length_pos_iff.2 hne; omega)

/-- Example: weights 1, 3 processes with 4 indices each, process 1 removed. -/
def exReArith : ReArith Int := ⟨(· + ·), (· - ·), fun a b => decide (b ≤ a), 0, 2, fun _ => 1⟩
def exReGroup : Group := { gid := 0, loc := [10, 11, 12], myid := some 0 }
def exReOld : List TR := [⟨0, 0, seg 0 4, 0⟩, ⟨1, 0, seg 4 8, 0⟩, ⟨2, 0, seg 8 12, 0⟩]

example : ∃ newg, shrink exReGroup 1 [1] = some newg ∧ newg.loc ≠ [] ∧
    (reassignCalls exReArith .d1 exReGroup newg exReOld).map
      (fun l => l.map (fun c => (c.task, c.box.lo.x, c.box.hi.x))) =
      some [(0,0,4),(0,4,6),(2,6,8),(2,8,12)] :=
  ⟨_, rfl, by decide, by decide⟩

theorem forall2_left {α β : Type} {R : α → β → Prop} {l : List α} {m : List β} (h : List.Forall₂ R l m) :
    ∀ a ∈ l, ∃ b ∈ m, R a b := by
  induction h with
  | nil => simp
  | cons h _ ih =>
    intro a ha
    rcases List.mem_cons.1 ha with rfl | ha
    · exact ⟨_, List.mem_cons_self, h⟩
    · obtain ⟨b, hb, hr⟩ := ih a ha
      exact ⟨b, List.mem_cons_of_mem _ hb, hr⟩

theorem forall2_right {α β : Type} {R : α → β → Prop} {l : List α} {m : List β} (h : List.Forall₂ R l m) :
    ∀ b ∈ m, ∃ a ∈ l, R a b := by
  induction h with
  | nil => simp
  | cons h _ ih =>
    intro b hb
    rcases List.mem_cons.1 hb with rfl | hb
    · exact ⟨_, List.mem_cons_self, h⟩
    · obtain ⟨a, ha, hr⟩ := ih b hb
      exact ⟨a, List.mem_cons_of_mem _ ha, hr⟩

/-- C16 in terms of ownership: remaining processes keep all their indices,
removed processes own nothing, the set of owned indices is unchanged; a
redistributed index was owned by a removed process. -/
theorem C16_ownership {W : Type} (A : ReArith W) (oldg newg : Group) (gid : Nat) (list : List Nat)
    (hsh : shrink oldg gid list = some newg) (hne : newg.loc ≠ []) (old : List TR)
    (ht : ∀ r ∈ old, r.task < oldg.loc.length) :
    ∃ cs, reassignCalls A .d1 oldg newg old = some cs ∧
      (∀ t p, t ∉ list → Owns .d1 old t p → Owns .d1 (cs.map Call.tr) t p) ∧
      (∀ c ∈ cs, c.task < oldg.loc.length ∧ c.task ∉ list) ∧
      (∀ p, (∃ t, Owns .d1 old t p) ↔ ∃ t, Owns .d1 (cs.map Call.tr) t p) ∧
      (∀ t p, Owns .d1 (cs.map Call.tr) t p → Owns .d1 old t p ∨ ∃ u ∈ list, Owns .d1 old u p) := by
  obtain ⟨ch, e, hfo⟩ := C16_reassign A oldg newg gid list hsh hne old ht
  have own_of : ∀ (t : Nat) (p : Idx), Owns .d1 (ch.flatten.map Call.tr) t p →
      Owns .d1 old t p ∨ ∃ u ∈ list, Owns .d1 old u p := by
    rintro t p ⟨r, hr, h1, h2⟩
    obtain ⟨c, hc, rfl⟩ := List.mem_map.1 hr
    obtain ⟨l, hl, hcl⟩ := List.mem_flatten.1 hc
    obtain ⟨o, ho, hR⟩ := forall2_right hfo l hl
    unfold ReassignedTo at hR
    split at hR
    · rename_i hm
      right
      exact ⟨o.task, hm, o, ho, rfl, (hR.1.cover p).2 ⟨c, hcl, h2⟩⟩
    · subst hR
      rw [List.mem_singleton] at hcl; subst hcl
      left; exact ⟨o, ho, h1, h2⟩
  refine ⟨_, e, ?_, ?_, ?_, own_of⟩
  · rintro t p hnl ⟨r, hr, h1, h2⟩
    obtain ⟨l, hl, hR⟩ := forall2_left hfo r hr
    unfold ReassignedTo at hR
    rw [if_neg (by rw [h1]; exact hnl)] at hR
    subst hR
    exact ⟨_, List.mem_map.2 ⟨_, List.mem_flatten.2 ⟨_, hl, List.mem_singleton_self _⟩, rfl⟩, h1, h2⟩
  · intro c hc
    obtain ⟨l, hl, hcl⟩ := List.mem_flatten.1 hc
    obtain ⟨o, ho, hR⟩ := forall2_right hfo l hl
    unfold ReassignedTo at hR
    split at hR
    · exact ⟨(hR.2 c hcl).1, (hR.2 c hcl).2.1⟩
    · rename_i hm
      subst hR
      rw [List.mem_singleton] at hcl; subst hcl
      exact ⟨ht o ho, hm⟩
  · intro p
    constructor
    · rintro ⟨t, r, hr, h1, h2⟩
      obtain ⟨l, hl, hR⟩ := forall2_left hfo r hr
      unfold ReassignedTo at hR
      split at hR
      · obtain ⟨c, hc, hm⟩ := (hR.1.cover p).1 h2
        exact ⟨c.task, c.tr, List.mem_map.2 ⟨c, List.mem_flatten.2 ⟨_, hl, hc⟩, rfl⟩, rfl, hm⟩
      · subst hR
        exact ⟨r.task, _, List.mem_map.2 ⟨_, List.mem_flatten.2 ⟨_, hl, List.mem_singleton_self _⟩, rfl⟩, rfl, h2⟩
    · rintro ⟨t, ho⟩
      rcases own_of t p ho with h | ⟨u, _, h⟩
      · exact ⟨t, h⟩
      · exact ⟨u, h⟩

/-- C16: if the old partitioning assigns every index at most once, so does the
new one. -/
theorem C16_stays_disjoint {W : Type} (A : ReArith W) (oldg newg : Group) (gid : Nat) (list : List Nat)
    (hsh : shrink oldg gid list = some newg) (hne : newg.loc ≠ []) (old : List TR)
    (ht : ∀ r ∈ old, r.task < oldg.loc.length)
    (hdis : old.Pairwise (fun a b => ∀ p, ¬ (Mem .d1 a.box p ∧ Mem .d1 b.box p))) :
    ∃ cs, reassignCalls A .d1 oldg newg old = some cs ∧
      cs.Pairwise (fun a b => ∀ p, ¬ (Mem .d1 a.box p ∧ Mem .d1 b.box p)) := by
  obtain ⟨ch, e, hfo⟩ := C16_reassign A oldg newg gid list hsh hne old ht
  refine ⟨_, e, ?_⟩
  clear e ht
  have hsub : ∀ (r : TR) (l : List Call), ReassignedTo oldg.loc.length list r l →
      l.Pairwise (fun a b => ∀ p, ¬ (Mem .d1 a.box p ∧ Mem .d1 b.box p)) ∧
      ∀ c ∈ l, ∀ p, Mem .d1 c.box p → Mem .d1 r.box p := by
    intro r l hR
    unfold ReassignedTo at hR
    split at hR
    · exact ⟨hR.1.disjoint, fun c hc p hm => (hR.1.cover p).2 ⟨c, hc, hm⟩⟩
    · subst hR
      refine ⟨by simp, fun c hc p hm => ?_⟩
      rw [List.mem_singleton] at hc; subst hc; exact hm
  induction hfo with
  | nil => simp
  | @cons a b l₁ l₂ h ht ih =>
    rw [List.pairwise_cons] at hdis
    rw [List.flatten_cons, List.pairwise_append]
    refine ⟨(hsub _ _ h).1, ih hdis.2, ?_⟩
    rintro x hx y hy p ⟨h1, h2⟩
    obtain ⟨l, hl, hyl⟩ := List.mem_flatten.1 hy
    obtain ⟨o, ho, hR⟩ := forall2_right ht l hl
    exact hdis.1 o ho p ⟨(hsub _ _ h).2 x hx p h1, (hsub _ _ hR).2 y hyl p h2⟩

/-- C16, composition with freezing and migration: the resulting partitioning of
the old group can be migrated to the shrunk group, and every physical process
owns the same indices afterwards as given by the partitioner. -/
theorem C16_migrates {W : Type} (A : ReArith W) (oldg newg : Group) (list : List Nat)
    (hsh : shrink oldg newg.gid list = some newg) (hne : newg.loc ≠ []) (ho : oldg.loc.Nodup)
    (space : Box) (old : List TR)
    (ht : ∀ r ∈ old, r.task < oldg.loc.length)
    (hin : ∀ r ∈ old, space.lo.x ≤ r.box.lo.x ∧ r.box.hi.x ≤ space.hi.x) :
    ∃ cs, reassignCalls A .d1 oldg newg old = some cs ∧
      runAppends .d1 space oldg.loc.length none cs = some (cs.map Call.tr) ∧
      ∀ sorted, IsSortOf sorted (cs.map Call.tr) →
        ∃ l, freeze .d1 oldg.loc.length false sorted = some l ∧
        ∃ tbl, migrateTable oldg newg = some tbl ∧
        ∀ sorted2, IsSortOf sorted2 (translate (fun i => (tbl[i]?).join) l.tr) →
          ∃ e', migrateEntry oldg.loc.length tbl newg.loc.length ⟨.full, l⟩ sorted2 = some e' ∧
            ∀ x g p, LocOwns .d1 newg e'.list.tr x g p ↔ LocOwns .d1 oldg (cs.map Call.tr) x g p := by
  obtain ⟨ch, e, hfo⟩ := C16_reassign A oldg newg newg.gid list hsh hne old ht
  have hcs : ∀ c ∈ ch.flatten, (c.task < oldg.loc.length ∧ c.task ∉ list) ∧
      space.lo.x ≤ c.box.lo.x ∧ c.box.hi.x ≤ space.hi.x := by
    intro c hc
    obtain ⟨l, hl, hcl⟩ := List.mem_flatten.1 hc
    obtain ⟨o, ho, hR⟩ := forall2_right hfo l hl
    have := hin o ho
    unfold ReassignedTo at hR
    split at hR
    · have := hR.2 c hcl
      exact ⟨⟨this.1, this.2.1⟩, by omega, by omega⟩
    · rename_i hm
      subst hR
      rw [List.mem_singleton] at hcl; subst hcl
      exact ⟨⟨ht o ho, hm⟩, this⟩
  have hlt : ∀ t ∈ ch.flatten.map Call.tr, t.task < oldg.loc.length := by
    intro t htm
    obtain ⟨c, hc, rfl⟩ := List.mem_map.1 htm
    exact (hcs c hc).1.1
  refine ⟨_, e, runAppends_none _ _ _ _ (fun c hc => ⟨(hcs c hc).1.1, ?_⟩), ?_⟩
  · rw [within_iff_dims]
    intro k hk
    have : k = 0 := by simp at hk; omega
    subst this
    have := (hcs c hc).2
    first | exact Or.inr this | exact this | (simp only [Idx.get] at *; omega)
  · intro sorted hs
    obtain ⟨l, hl, hlc, hperm⟩ := C06_freeze_keeps_entries .d1 oldg.loc.length _ sorted hs hlt
    obtain ⟨_, _, hloc, _⟩ := C29_members oldg newg newg.gid list hsh
    have hn : newg.loc.Nodup := by
      rw [hloc]
      apply List.Nodup.map_on _ (List.nodup_range.filter _)
      intro a ha b hb hab
      simp only [List.mem_filter, List.mem_range] at ha hb
      rw [List.getElem?_eq_getElem ha.1, List.getElem?_eq_getElem hb.1] at hab
      exact (List.Nodup.getElem_inj_iff ho).1 (by simpa using hab)
    have hkey : ∀ r ∈ l.tr, ∃ c ∈ ch.flatten, c.task = r.task := by
      intro r hr
      have : r.key ∈ (ch.flatten.map Call.tr).map TR.key :=
        hperm.mem_iff.1 (List.mem_map.2 ⟨r, hr, rfl⟩)
      obtain ⟨t, ht, hk⟩ := List.mem_map.1 this
      obtain ⟨c, hc, rfl⟩ := List.mem_map.1 ht
      refine ⟨c, hc, ?_⟩
      have := congrArg (fun k => k.1) hk
      exact this
    obtain ⟨tbl, htb, hm⟩ := C08_migrate_partial .d1 oldg newg ho hn (.shrunk list hsh) ⟨.full, l⟩
      (Frozen.freeze _ false _ sorted l hs hlt hl) hlc (fun f hf => by cases hf) (by
        intro r hr x hx
        obtain ⟨c, hc, hct⟩ := hkey r hr
        have := (hcs c hc).1
        rw [hct] at this
        rw [hloc, List.mem_map]
        refine ⟨r.task, ?_, by rw [hx]; rfl⟩
        rw [List.mem_filter, List.mem_range]
        exact ⟨this.1, by simpa using this.2⟩)
    refine ⟨l, hl, tbl, htb, fun s2 hs2 => ?_⟩
    obtain ⟨e', he, hown⟩ := hm s2 hs2
    refine ⟨e', he, fun x g p => ?_⟩
    rw [hown x g p]
    have hot : ∀ t, OwnsTag .d1 l.tr t g p ↔ OwnsTag .d1 (ch.flatten.map Call.tr) t g p := by
      intro t
      constructor
      · rintro ⟨r, hr, h1⟩
        have : r.key ∈ (ch.flatten.map Call.tr).map TR.key :=
          hperm.mem_iff.1 (List.mem_map.2 ⟨r, hr, rfl⟩)
        obtain ⟨u, hu, hk⟩ := List.mem_map.1 this
        refine ⟨u, hu, ?_⟩
        simp only [TR.key, Prod.mk.injEq] at hk
        obtain ⟨k1, k2, k3⟩ := hk
        rw [k1, k2, k3]; exact h1
      · rintro ⟨r, hr, h1⟩
        have : r.key ∈ l.tr.map TR.key := hperm.mem_iff.2 (List.mem_map.2 ⟨r, hr, rfl⟩)
        obtain ⟨u, hu, hk⟩ := List.mem_map.1 this
        refine ⟨u, hu, ?_⟩
        simp only [TR.key, Prod.mk.injEq] at hk
        obtain ⟨k1, k2, k3⟩ := hk
        rw [k1, k2, k3]; exact h1
    constructor
    · rintro ⟨t, h1, h2⟩; exact ⟨t, h1, (hot t).1 h2⟩
    · rintro ⟨t, h1, h2⟩; exact ⟨t, h1, (hot t).2 h2⟩

/-- Removing all processes: the code reads `toParent[0]` of an empty table. -/
theorem C16_remove_all_undefined :
    ∃ newg, shrink exReGroup 1 [0, 1, 2] = some newg ∧ newg.loc = [] ∧
      reassignCalls exReArith .d1 exReGroup newg exReOld = none := ⟨_, rfl, by decide, by decide⟩

/-- Tags are not kept: a range with tag 7 of a remaining process gets tag 0. -/
theorem C16_tag_lost :
    ∃ newg, shrink exReGroup 1 [1] = some newg ∧
      reassignCalls exReArith .d1 exReGroup newg [⟨0, 7, seg 0 4, 0⟩] = some [⟨0, seg 0 4, 0⟩] :=
  ⟨_, rfl, by decide⟩

end Laik
