import Verif.Model.Group
/-!
# Model of migrating partitionings between groups (`src/partitioning.c` 586-628)
-/

namespace Laik

/-- Kinds of stored range lists (`info`/`filter_tid` of `RangeList_Entry`). -/
inductive PInfo
  | full
  | intersect
  | single (filterTid : Option Nat)
  deriving DecidableEq, Repr

/-- `RangeList_Entry` in a partitioning. -/
structure PEntry where
  info : PInfo
  list : RangeList
  deriving DecidableEq, Repr

/-- Choice of the translation table, src/partitioning.c 594-615; `none`: failed
assert 614.  (For groups which are different objects.) -/
def migrateTable (oldg newg : Group) : Option (List (Option Nat)) :=
  if newg.parent = some oldg.gid then some newg.fromParent
  else if newg.parent2 = some oldg.gid then some newg.fromParent2
  else if oldg.parent = some newg.gid then some oldg.toParent
  else if oldg.parent2 = some newg.gid then some oldg.toParent2
  else none

/-- Translation of one entry, src/partitioning.c 618-625; `sorted` is the result
of the sort in `laik_rangelist_migrate`; `none`: failed assert 620, table
accessed out of bounds (a filter id of -1), or failed migration of the list. -/
def migrateEntry (oldSize : Nat) (tbl : List (Option Nat)) (newCount : Nat) (e : PEntry)
    (sorted : List TR) : Option PEntry :=
  let info := match e.info with
    | .single none => none
    | .single (some f) => if f < oldSize then (tbl[f]?).map .single else none
    | i => some i
  match info, e.list.migrate (fun i => (tbl[i]?).join) newCount sorted with
  | some info, some list => some ⟨info, list⟩
  | _, _ => none

/-- `laik_partitioning_migrate`, src/partitioning.c 589-628, for a partitioning
with group `oldg` and the given entries; `sorts` are the sort results. -/
def migrateAll (oldg newg : Group) (es : List PEntry) (sorts : List (List TR)) :
    Option (List PEntry) :=
  if oldg.gid = newg.gid then some es
  else match migrateTable oldg newg with
    | none => none
    | some tbl => (es.zip sorts).mapM (fun x => migrateEntry oldg.loc.length tbl newg.loc.length x.1 x.2)

theorem Grouped.task_lt {l : RangeList} {gs : List (List TR)} (h : Grouped l gs) :
    ∀ t ∈ l.tr, t.task < l.tidCount := by
  intro t ht
  rw [h.tr, List.mem_flatten] at ht
  obtain ⟨g, hg, ht⟩ := ht
  obtain ⟨k, hk, rfl⟩ := List.mem_iff_getElem.1 hg
  have := h.own k hk t ht
  rw [← h.count]; omega

theorem Grouped.off_eq_iff {l : RangeList} {gs : List (List TR)} (h : Grouped l gs) (k : Nat)
    (hk : k < l.tidCount) : (l.off[k]? = l.off[k+1]?) ↔ ∀ t ∈ l.tr, t.task ≠ k := by
  have hk' : k < gs.length := by rw [h.count]; exact hk
  rw [h.offk k (by omega), h.offk (k+1) hk, take_succ_flatten_length gs k hk']
  simp only [Option.some.injEq]
  have hlen : (gs.take k).flatten.length = (gs.take k).flatten.length + gs[k].length ↔ gs[k] = [] := by
    rw [← List.length_eq_zero_iff]; omega
  rw [hlen]
  constructor
  · intro he t ht heq
    rw [h.tr, List.mem_flatten] at ht
    obtain ⟨g, hg, ht⟩ := ht
    obtain ⟨j, hj, rfl⟩ := List.mem_iff_getElem.1 hg
    have := h.own j hj t ht
    have hjk : j = k := by omega
    subst hjk
    rw [he] at ht; simp at ht
  · intro hn
    rw [List.eq_nil_iff_forall_not_mem]
    intro t ht
    exact hn t (by rw [h.tr, List.mem_flatten]; exact ⟨_, List.getElem_mem hk', ht⟩)
      (h.own k hk' t ht)

theorem Grouped.migrateOk_iff {l : RangeList} {gs : List (List TR)} (h : Grouped l gs)
    (idmap : Nat → Option Nat) (n : Nat) :
    l.migrateOk idmap n = true ↔ ∀ t ∈ l.tr, ∃ m, idmap t.task = some m ∧ m < n := by
  unfold RangeList.migrateOk
  rw [Bool.and_eq_true, List.all_eq_true, List.all_eq_true]
  constructor
  · rintro ⟨_, h2⟩ t ht
    have := h2 t ht
    rw [Bool.and_eq_true] at this
    cases hm : idmap t.task with
    | none => rw [hm] at this; simp at this
    | some m => rw [hm] at this; exact ⟨m, rfl, by simpa using this.2⟩
  · intro hall
    constructor
    · intro i hi
      rw [List.mem_range] at hi
      cases hm : idmap i with
      | some m => simp
      | none =>
        simp only [Option.isSome_none, Bool.false_or, beq_iff_eq]
        rw [h.off_eq_iff i hi]
        intro t ht he
        obtain ⟨m, hm', _⟩ := hall t ht
        rw [he, hm] at hm'; cases hm'
    · intro t ht
      obtain ⟨m, hm, hlt⟩ := hall t ht
      rw [Bool.and_eq_true, hm]
      exact ⟨by simpa using h.task_lt t ht, by simpa using hlt⟩

end Laik
