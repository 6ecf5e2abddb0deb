import Verif.Model.Migrate
import Verif.Props.RangeList
import Verif.Props.Group
/-!
# C08: migrating a partitioning to another group
-/

namespace Laik

/-- A frozen list as produced by `laik_rangelist_freeze` (any format, with or
without merging) or by a previous migration. -/
inductive Frozen (d : Dims) : RangeList → Prop
  | freeze (n : Nat) (m : Bool) (appended sorted : List TR) (l : RangeList)
      (hs : IsSortOf sorted appended) (hlt : ∀ t ∈ appended, t.task < n)
      (h : freeze d n m sorted = some l) : Frozen d l
  | freezeSI (n : Nat) (appended sorted : List (Nat × Int)) (l : RangeList)
      (hp : sorted.Perm appended) (hs : sorted.Pairwise siLe) (hlt : ∀ a ∈ appended, a.1 < n)
      (h : freezeSI n sorted = some l) : Frozen d l
  | query (l l' : RangeList) (tid : Nat) (h : Frozen d l) (hq : l.updateMapOffsets tid = some l') :
      Frozen d l'
  | migrate (l l' : RangeList) (idmap : Nat → Option Nat) (n : Nat) (sorted : List TR)
      (h : Frozen d l) (hs : IsSortOf sorted (translate idmap l.tr))
      (hm : l.migrate idmap n sorted = some l') : Frozen d l'

theorem grouped_congr {l l' : RangeList} {gs : List (List TR)} (h : Grouped l gs)
    (h1 : l'.tidCount = l.tidCount) (h2 : l'.tr = l.tr) (h3 : l'.off = l.off) : Grouped l' gs :=
  ⟨by rw [h1]; exact h.count, by rw [h2]; exact h.tr, by rw [h3]; exact h.off, h.own⟩

theorem translate_lt {l : RangeList} {gs : List (List TR)} (hg : Grouped l gs)
    {idmap : Nat → Option Nat} {n : Nat} (hok : l.migrateOk idmap n = true) {sorted : List TR}
    (hs : IsSortOf sorted (translate idmap l.tr)) : ∀ t ∈ sorted, t.task < n := by
  intro t ht
  have := hs.1.mem_iff.1 ht
  simp only [translate, List.mem_map] at this
  obtain ⟨u, hu, rfl⟩ := this
  obtain ⟨m, hm, hlt⟩ := (hg.migrateOk_iff idmap n).1 hok u hu
  simp [hm, hlt]

theorem Frozen.grouped {d : Dims} {l : RangeList} (h : Frozen d l) : ∃ gs, Grouped l gs := by
  induction h with
  | freeze n m appended sorted l hs hlt h =>
    have hlt' : ∀ t ∈ sorted, t.task < n := fun t ht => hlt t (hs.1.mem_iff.1 ht)
    unfold Laik.freeze at h
    cases m with
    | false =>
      obtain ⟨off, tr, hu, hg⟩ := updateOffsets_grouped sorted n hs.2 hlt'
      simp [hu] at h; subst h; exact ⟨_, hg⟩
    | true =>
      cases sorted with
      | nil => simp [mergeSorted] at h
      | cons t ts =>
        by_cases hd : d = .d1
        · obtain ⟨hsep, hfrom⟩ := mergeGo_sep t ts hs.2
          obtain ⟨off, tr, hu, hg⟩ := updateOffsets_grouped (mergeGo t ts) n (hsep.imp (fun h => h.1))
            (fun r hr => by obtain ⟨u, hu, e, _⟩ := hfrom r hr; rw [e]; exact hlt' u hu)
          simp [mergeSorted, hd, hu] at h; subst h; exact ⟨_, hg⟩
        · simp [mergeSorted, hd] at h
  | freezeSI n appended sorted l hp hs hlt h =>
    cases sorted with
    | nil => cases h
    | cons a rest =>
      obtain ⟨off, tr, hf, hg⟩ := freezeSI_grouped n a.1 a.2 rest hs
        (fun x hx => hlt x (hp.mem_iff.1 hx))
      rw [hf] at h; cases h; exact ⟨_, hg⟩
  | query l l' tid h hq ih =>
    obtain ⟨gs, hg⟩ := ih
    refine ⟨gs, grouped_congr hg ?_ ?_ ?_⟩ <;>
    · unfold RangeList.updateMapOffsets at hq
      repeat' split at hq
      all_goals first
        | (cases hq; rfl)
        | cases hq
  | migrate l l' idmap n sorted h hs hm ih =>
    obtain ⟨gs, hg⟩ := ih
    unfold RangeList.migrate at hm
    split at hm
    · rename_i hok
      obtain ⟨off, tr, hu, hg'⟩ := updateOffsets_grouped sorted n hs.2 (translate_lt hg hok hs)
      rw [hu] at hm
      simp only [Option.some.injEq] at hm
      subst hm
      exact ⟨_, grouped_congr hg' rfl rfl rfl⟩
    · cases hm

/-- Migrating a range list succeeds iff each process with a stored range has a
valid id in the new numbering. -/
theorem C08_list_success (d : Dims) (l : RangeList) (hf : Frozen d l) (idmap : Nat → Option Nat)
    (n : Nat) (sorted : List TR) (hs : IsSortOf sorted (translate idmap l.tr)) :
    (∃ l', l.migrate idmap n sorted = some l') ↔
      ∀ r ∈ l.tr, ∃ m, idmap r.task = some m ∧ m < n := by
  obtain ⟨gs, hg⟩ := hf.grouped
  rw [← hg.migrateOk_iff]
  unfold RangeList.migrate
  constructor
  · rintro ⟨l', hm⟩
    split at hm
    · assumption
    · cases hm
  · intro hok
    obtain ⟨off, tr, hu, _⟩ := updateOffsets_grouped sorted n hs.2 (translate_lt hg hok hs)
    exact ⟨_, by simp [hok, hu]; rfl⟩

/-- After a successful migration exactly the translated owners own each index. -/
theorem C08_list_ownership (d : Dims) (l l' : RangeList) (hf : Frozen d l)
    (idmap : Nat → Option Nat) (n : Nat)
    (sorted : List TR) (hs : IsSortOf sorted (translate idmap l.tr))
    (hm : l.migrate idmap n sorted = some l') (t' : Nat) (g : Int) (p : Idx) :
    OwnsTag d l'.tr t' g p ↔ ∃ t, idmap t = some t' ∧ OwnsTag d l.tr t g p := by
  obtain ⟨gs, hg⟩ := hf.grouped
  unfold RangeList.migrate at hm
  split at hm
  · rename_i hok
    have hlt := translate_lt hg hok hs
    have hkey := groups_flatten_key n sorted hs.2 hlt
    rw [updateOffsets_spec n sorted hs.2 hlt] at hm
    simp only [Option.some.injEq] at hm
    subst hm
    have hall := (hg.migrateOk_iff idmap n).1 hok
    constructor
    · rintro ⟨r, hr, a, b, c⟩
      obtain ⟨u, hu, e1, e2, e3⟩ := mem_of_key hkey hr
      have := hs.1.mem_iff.1 hu
      simp only [translate, List.mem_map] at this
      obtain ⟨v, hv, rfl⟩ := this
      obtain ⟨m, hm, _⟩ := hall v hv
      simp only [hm, Option.getD_some] at e1
      exact ⟨v.task, by rw [hm]; congr 1; omega, v, hv, rfl, e2.trans b, by simp only at e3; rw [e3]; exact c⟩
    · rintro ⟨t, ht, v, hv, a, b, c⟩
      have hmem : ({ v with task := (idmap v.task).getD 0 } : TR) ∈ sorted := by
        rw [hs.1.mem_iff]; exact List.mem_map_of_mem hv
      obtain ⟨u, hu, e1, e2, e3⟩ := mem_of_key hkey.symm hmem
      refine ⟨u, hu, ?_, by rw [e2]; exact b, by rw [e3]; exact c⟩
      rw [e1, a, ht]; rfl
  · cases hm

/-- Specification: the physical process at location `x` owns index `p`. -/
def LocOwns (d : Dims) (g : Group) (tr : List TR) (x : Nat) (tag : Int) (p : Idx) : Prop :=
  ∃ t, g.loc[t]? = some x ∧ OwnsTag d tr t tag p

/-- Shrinking tables are translations in the sense of `IsTranslation`. -/
theorem C29_translation (g g2 : Group) (gid : Nat) (list : List Nat) (hnd : g.loc.Nodup)
    (h : shrink g gid list = some g2) :
    IsTranslation g2.fromParent g.loc g2.loc ∧ IsTranslation g2.toParent g2.loc g.loc := by
  obtain ⟨h1, h2, h3, h4, h5, _⟩ := C29_tables g g2 gid list h
  obtain ⟨_, _, hloc, hto⟩ := C29_members g g2 gid list h
  have key : ∀ i j : Nat, (∃ x, g.loc[i]? = some x ∧ g2.loc[j]? = some x) →
      g2.toParent[j]? = some (some i) := by
    rintro i j ⟨x, hx, hy⟩
    have hj : j < g2.loc.length := (List.getElem?_eq_some_iff.1 hy).1
    rw [← h2] at hj
    have hij : ∃ i', g2.toParent[j]? = some (some i') := by
      rw [hto]
      rw [hto, List.length_map] at hj
      exact ⟨_, by rw [List.getElem?_map, List.getElem?_eq_getElem hj]; rfl⟩
    obtain ⟨i', hi'⟩ := hij
    obtain ⟨y, e1, e2⟩ := h5 i' j ((h4 i' j).2 hi')
    rw [hy] at e2; cases e2
    obtain ⟨l1, e1'⟩ := List.getElem?_eq_some_iff.1 hx
    obtain ⟨l2, e2'⟩ := List.getElem?_eq_some_iff.1 e1
    have := (List.Nodup.getElem_inj_iff hnd).1 (e1'.trans e2'.symm)
    subst this; exact hi'
  refine ⟨⟨h1, fun i j => ⟨h5 i j, fun h => (h4 i j).2 (key i j h)⟩⟩, h2, fun j i => ?_⟩
  constructor
  · intro h
    obtain ⟨x, a, b⟩ := h5 i j ((h4 i j).2 h); exact ⟨x, b, a⟩
  · rintro ⟨x, a, b⟩; exact key i j ⟨x, b, a⟩

/-- The ways two groups can be related: one is derived from the other by
shrinking or as union.  Group ids are unique, so the groups are not at the same
time derived the other way round. -/
inductive Derived (oldg newg : Group) : Prop
  | shrunk (list : List Nat) (h : shrink oldg newg.gid list = some newg)
  | unshrunk (list : List Nat) (h : shrink newg oldg.gid list = some oldg)
      (hn : newg.parent ≠ some oldg.gid) (hn2 : newg.parent2 ≠ some oldg.gid)
  | union1 (mylid : Nat) (g2 : Group) (s : List (Nat × Nat)) (h2 : g2.loc.Nodup)
      (hs : IsUnionSort s oldg.loc g2.loc) (h : newg = union mylid oldg g2 newg.gid s)
      (hn1 : newg ≠ oldg) (hn2 : newg ≠ g2)
  | union2 (mylid : Nat) (g1 : Group) (s : List (Nat × Nat)) (h1 : g1.loc.Nodup)
      (hs : IsUnionSort s g1.loc oldg.loc) (h : newg = union mylid g1 oldg newg.gid s)
      (hn1 : newg ≠ g1) (hn2 : newg ≠ oldg) (hid : g1.gid ≠ oldg.gid)
  | ununion1 (mylid : Nat) (g2 : Group) (s : List (Nat × Nat)) (h2 : g2.loc.Nodup)
      (hs : IsUnionSort s newg.loc g2.loc) (h : oldg = union mylid newg g2 oldg.gid s)
      (hn1 : oldg ≠ newg) (hn2 : oldg ≠ g2)
      (hn : newg.parent ≠ some oldg.gid) (hn' : newg.parent2 ≠ some oldg.gid)
  | ununion2 (mylid : Nat) (g1 : Group) (s : List (Nat × Nat)) (h1 : g1.loc.Nodup)
      (hs : IsUnionSort s g1.loc newg.loc) (h : oldg = union mylid g1 newg oldg.gid s)
      (hn1 : oldg ≠ g1) (hn2 : oldg ≠ newg) (hid : g1.gid ≠ newg.gid)
      (hn : newg.parent ≠ some oldg.gid) (hn' : newg.parent2 ≠ some oldg.gid)

/-- For related groups, the table used for migration is the exact translation. -/
theorem C08_table (oldg newg : Group) (ho : oldg.loc.Nodup) (hn : newg.loc.Nodup)
    (hd : Derived oldg newg) :
    ∃ tbl, migrateTable oldg newg = some tbl ∧ IsTranslation tbl oldg.loc newg.loc := by
  cases hd with
  | shrunk list h =>
    obtain ⟨_, hp, _⟩ := C29_members _ _ _ _ h
    exact ⟨_, by simp [migrateTable, hp], (C29_translation _ _ _ _ ho h).1⟩
  | unshrunk list h hn1 hn2 =>
    obtain ⟨_, hp, _⟩ := C29_members _ _ _ _ h
    exact ⟨_, by simp [migrateTable, hp, hn1, hn2], (C29_translation _ _ _ _ hn h).2⟩
  | union1 mylid g2 s h2 hs h hn1 hn2 =>
    have ht := C28_tables mylid oldg g2 newg.gid s ho h2 hs (by rw [← h]; exact hn1) (by rw [← h]; exact hn2)
    rw [← h] at ht
    obtain ⟨hp, hp2, _, t1, t2, t3, t4, _⟩ := ht
    exact ⟨_, by simp [migrateTable, hp], t1⟩
  | union2 mylid g1 s h1 hs h hn1 hn2 hid =>
    have ht := C28_tables mylid g1 oldg newg.gid s h1 ho hs (by rw [← h]; exact hn1) (by rw [← h]; exact hn2)
    rw [← h] at ht
    obtain ⟨hp, hp2, _, t1, t2, t3, t4, _⟩ := ht
    exact ⟨_, by simp [migrateTable, hp, hp2, hid], t3⟩
  | ununion1 mylid g2 s h2 hs h hn1 hn2 hn3 hn4 =>
    have ht := C28_tables mylid newg g2 oldg.gid s hn h2 hs (by rw [← h]; exact hn1) (by rw [← h]; exact hn2)
    rw [← h] at ht
    obtain ⟨hp, hp2, _, t1, t2, t3, t4, _⟩ := ht
    exact ⟨_, by simp [migrateTable, hp, hn3, hn4], t2⟩
  | ununion2 mylid g1 s h1 hs h hn1 hn2 hid hn3 hn4 =>
    have ht := C28_tables mylid g1 newg oldg.gid s h1 hn hs (by rw [← h]; exact hn1) (by rw [← h]; exact hn2)
    rw [← h] at ht
    obtain ⟨hp, hp2, _, t1, t2, t3, t4, _⟩ := ht
    exact ⟨_, by simp [migrateTable, hp, hp2, hid, hn3, hn4], t4⟩

/-- Main theorem (partial only in excluding filter id -1): migrating a stored range list of a partitioning from `oldg`
to a related group `newg`.  It succeeds if every process owning a range is a
member of the new group, and then every range stays with its physical process.
(A filter id -1, left by an earlier migration on a removed process, is
excluded, see `C08_second_migration_undefined`.) -/
theorem C08_migrate_partial (d : Dims) (oldg newg : Group) (ho : oldg.loc.Nodup) (hn : newg.loc.Nodup)
    (hd : Derived oldg newg) (e : PEntry) (hf : Frozen d e.list)
    (hcount : e.list.tidCount = oldg.loc.length)
    (hfilter : ∀ f, e.info = .single f → ∃ i, f = some i ∧ i < oldg.loc.length)
    (howner : ∀ r ∈ e.list.tr, ∀ x, oldg.loc[r.task]? = some x → x ∈ newg.loc) :
    ∃ tbl, migrateTable oldg newg = some tbl ∧
      ∀ sorted, IsSortOf sorted (translate (fun i => (tbl[i]?).join) e.list.tr) →
        ∃ e', migrateEntry oldg.loc.length tbl newg.loc.length e sorted = some e' ∧
          ∀ x g p, LocOwns d newg e'.list.tr x g p ↔ LocOwns d oldg e.list.tr x g p := by
  obtain ⟨tbl, htbl, hlen, htr⟩ := C08_table oldg newg ho hn hd
  refine ⟨tbl, htbl, fun sorted hs => ?_⟩
  obtain ⟨gs, hg⟩ := hf.grouped
  have hjoin : ∀ i m : Nat, (tbl[i]?).join = some m ↔ tbl[i]? = some (some m) := by
    intro i m
    cases tbl[i]? <;> simp
  have hok : e.list.migrateOk (fun i => (tbl[i]?).join) newg.loc.length = true := by
    rw [hg.migrateOk_iff]
    intro r hr
    have hlt : r.task < oldg.loc.length := by rw [← hcount]; exact hg.task_lt r hr
    have hx := howner r hr _ (List.getElem?_eq_getElem hlt)
    obtain ⟨j, hj⟩ := List.mem_iff_getElem?.1 hx
    exact ⟨j, (hjoin _ _).2 ((htr r.task j).2 ⟨_, List.getElem?_eq_getElem hlt, hj⟩),
      (List.getElem?_eq_some_iff.1 hj).1⟩
  obtain ⟨off, tr, hu, _⟩ := updateOffsets_grouped sorted newg.loc.length hs.2 (translate_lt hg hok hs)
  have hm : e.list.migrate (fun i => (tbl[i]?).join) newg.loc.length sorted =
      some { e.list with tidCount := newg.loc.length, tr, off } := by
    simp [RangeList.migrate, hok, hu]
  have hinfo : ∃ info, migrateEntry oldg.loc.length tbl newg.loc.length e sorted =
      some ⟨info, { e.list with tidCount := newg.loc.length, tr, off }⟩ := by
    unfold migrateEntry
    rw [hm]
    cases hi : e.info with
    | full => exact ⟨_, rfl⟩
    | intersect => exact ⟨_, rfl⟩
    | single f =>
      obtain ⟨i, rfl, hlt⟩ := hfilter f hi
      rw [← hlen] at hlt
      have hlt' : i < oldg.loc.length := by omega
      simp [hlt', hlt]
  obtain ⟨info, hent⟩ := hinfo
  refine ⟨_, hent, fun x g p => ?_⟩
  have hown := C08_list_ownership d e.list _ hf _ _ sorted hs hm
  unfold LocOwns
  simp only at hown ⊢
  constructor
  · rintro ⟨t', hx, ho'⟩
    obtain ⟨t, ht, ho''⟩ := (hown t' g p).1 ho'
    obtain ⟨y, hy, hy'⟩ := (htr t t').1 ((hjoin t t').1 ht)
    rw [hx] at hy'; cases hy'
    exact ⟨t, hy, ho''⟩
  · rintro ⟨t, hx, ho'⟩
    have ho2 := ho'
    obtain ⟨r, hr, rfl, _⟩ := ho2
    obtain ⟨m, hm', _⟩ := (hg.migrateOk_iff _ _).1 hok r hr
    obtain ⟨y, hy, hy'⟩ := (htr r.task m).1 ((hjoin _ _).1 hm')
    rw [hx] at hy; cases hy
    exact ⟨m, hy', (hown m g p).2 ⟨r.task, hm', ho'⟩⟩

/-- It aborts if some range belongs to a process not in the new group. -/
theorem C08_owner_missing_aborts (d : Dims) (oldg newg : Group) (ho : oldg.loc.Nodup)
    (hn : newg.loc.Nodup) (hd : Derived oldg newg) (e : PEntry) (hf : Frozen d e.list)
    (r : TR) (hr : r ∈ e.list.tr) (x : Nat) (hx : oldg.loc[r.task]? = some x) (hnot : x ∉ newg.loc)
    (tbl : List (Option Nat)) (htbl : migrateTable oldg newg = some tbl) (sorted : List TR) :
    migrateEntry oldg.loc.length tbl newg.loc.length e sorted = none := by
  obtain ⟨tbl', htbl', _, htr⟩ := C08_table oldg newg ho hn hd
  rw [htbl] at htbl'; cases htbl'
  obtain ⟨gs, hg⟩ := hf.grouped
  have hok : ¬ e.list.migrateOk (fun i => (tbl[i]?).join) newg.loc.length = true := by
    rw [hg.migrateOk_iff]
    intro hall
    obtain ⟨m, hm, _⟩ := hall r hr
    have : tbl[r.task]? = some (some m) := by
      cases h : tbl[r.task]? with
      | none => rw [h] at hm; cases hm
      | some v => rw [h] at hm; simp at hm; rw [hm]
    obtain ⟨y, hy, hy'⟩ := (htr _ _).1 this
    rw [hx] at hy; cases hy
    exact hnot (List.mem_of_getElem? hy')
  simp only [migrateEntry, RangeList.migrate, if_neg hok]
  split <;> first | rfl | (rename_i h; cases h)

/-- Groups two derivation steps apart are not supported: abort. -/
theorem C08_two_generations_abort :
    ∃ g0 g1 g2 : Group, shrink g0 1 [3] = some g1 ∧ shrink g1 2 [2] = some g2 ∧
      migrateAll g0 g2 [] [] = none :=
  ⟨⟨0, [0, 1, 2, 3], some 0, none, none, [], [], [], []⟩, _, _, rfl, rfl, by decide⟩

/-- Violation (stale cache): after the own maps were enumerated once, migrating
to a group with another own id makes the next enumeration abort, although the
migration itself succeeds.  Process 1 of 2 is renumbered to 0. -/
theorem C08_stale_map_cache_aborts :
    ∃ l0 l1 l2 : RangeList, Frozen .d1 l0 ∧
      l0.updateMapOffsets 1 = some l1 ∧ l0.tidMapRange 1 0 0 = some (some ⟨1, 0, ⟨⟨0,0,0⟩,⟨9,0,0⟩⟩, 0⟩) ∧
      l1.migrate (fun i => if i = 1 then some 0 else none) 1 [⟨0, 0, ⟨⟨0,0,0⟩,⟨9,0,0⟩⟩, 0⟩] = some l2 ∧
      l2.tidRange 0 0 = some (some ⟨0, 0, ⟨⟨0,0,0⟩,⟨9,0,0⟩⟩, 0⟩) ∧
      l2.tidMapRange 0 0 0 = none := by
  refine ⟨_, _, _, .freeze 2 false [⟨1, 0, ⟨⟨0,0,0⟩,⟨9,0,0⟩⟩, 0⟩] [⟨1, 0, ⟨⟨0,0,0⟩,⟨9,0,0⟩⟩, 0⟩] _
    ⟨List.Perm.refl _, by simp⟩ (by simp) rfl, rfl, ?_, rfl, ?_, ?_⟩ <;> decide

/-- Violation (stale cache, own id kept): offsets of other processes' ranges
moved by the migration make the enumeration of the own maps abort, although the
own id 1 is the same in both groups. -/
theorem C08_stale_map_offsets :
    ∃ l0 l1 l2 : RangeList, Frozen .d1 l0 ∧ l0.updateMapOffsets 1 = some l1 ∧
      l1.migrate (fun i => if i = 0 then some 2 else if i = 1 then some 1 else none) 3
        [⟨1, 0, ⟨⟨4,0,0⟩,⟨9,0,0⟩⟩, 0⟩, ⟨2, 0, ⟨⟨0,0,0⟩,⟨4,0,0⟩⟩, 0⟩] = some l2 ∧
      l2.tidRange 1 0 = some (some ⟨1, 0, ⟨⟨4,0,0⟩,⟨9,0,0⟩⟩, 0⟩) ∧
      l2.tidMapRange 1 0 0 = none := by
  refine ⟨_, _, _, .freeze 2 false
    [⟨0, 0, ⟨⟨0,0,0⟩,⟨4,0,0⟩⟩, 0⟩, ⟨1, 0, ⟨⟨4,0,0⟩,⟨9,0,0⟩⟩, 0⟩]
    [⟨0, 0, ⟨⟨0,0,0⟩,⟨4,0,0⟩⟩, 0⟩, ⟨1, 0, ⟨⟨4,0,0⟩,⟨9,0,0⟩⟩, 0⟩] _
    ⟨List.Perm.refl _, by simp [trLe]⟩ (by simp) rfl, rfl, rfl, ?_, ?_⟩ <;> decide

/-- Violation: for lists built in single-index format, migration changes the
map structure (one map before, one map per range after). -/
theorem C08_single_index_maps_change :
    ∃ l0 l1 : RangeList, Frozen .d1 l0 ∧ l0.tidMapCount 0 = some 1 ∧
      l0.migrate (fun i => some i) 1
        [⟨0, 0, ⟨⟨0,0,0⟩,⟨1,0,0⟩⟩, 0⟩, ⟨0, 0, ⟨⟨4,0,0⟩,⟨5,0,0⟩⟩, 0⟩] = some l1 ∧
      l1.tidMapCount 0 = some 2 := by
  refine ⟨_, _, .freezeSI 1 [(0, 0), (0, 4)] [(0, 0), (0, 4)] _ (List.Perm.refl _) (by simp [siLe])
    (by simp) rfl, ?_, rfl, ?_⟩ <;> decide

/-- Violation: a process removed by a first migration has filter id -1; a second
migration uses this as table index. -/
theorem C08_second_migration_undefined :
    ∃ (g0 g1 g2 : Group) (e e1 : PEntry), shrink g0 1 [2] = some g1 ∧ shrink g1 2 [1] = some g2 ∧
      e.info = .single (some 2) ∧ migrateAll g0 g1 [e] [[]] = some [e1] ∧
      migrateAll g1 g2 [e1] [[]] = none :=
  ⟨⟨0, [0, 1, 2], some 2, none, none, [], [], [], []⟩, _, _,
    ⟨.single (some 2), ⟨3, [], [0, 0, 0, 0], none, []⟩⟩, _, rfl, rfl, rfl, rfl, by decide⟩

example : Derived ⟨0, [5, 6, 7], some 0, none, none, [], [], [], []⟩
    ⟨1, [5, 7], some 0, some 0, none, [some 0, none, some 1], [some 0, some 2], [], []⟩ :=
  .shrunk [1] (by decide)

end Laik
