import Verif.Model.AllocBuf
import Verif.Model.CombineLemmas
import Mathlib.Data.List.Nodup
/-!
# C23: temporary buffers never overlap or overflow
-/

namespace Laik

/-! ### Specification -/

/-- Reservations not yet allocated. -/
def pendingRes (l : List BAct) : List (Nat × Nat) :=
  l.filterMap (fun a => match a with
    | .res id size => if id < 5 then none else some (id, size)
    | _ => none)

/-- Bytes used by an action, relative to its buffer. -/
def RUse.touches (es : Nat) (u : RUse) (x : Nat) : Prop :=
  match u.ce with
  | none => u.off ≤ x ∧ x < u.off + u.count * es
  | some ce => ∃ c ∈ ce, u.off + c.offset ≤ x ∧ x < u.off + c.offset + c.bytes

/-- The action moved by `d` bytes within buffer `b`. -/
def RUse.moved (u : RUse) (b d : Nat) : RUse := { u with bufID := b, off := d + u.off }

/-- Expected result for an action with reservations placed at `base`. -/
def placed (b : Nat) (base : Nat → Nat) : BAct → Option BAct
  | .res _ _ => none
  | .use u => some (.use (if u.bufID < 5 then u else u.moved b (base u.bufID)))
  | .other k => some (.other k)

/-! ### Proof -/

private theorem u32_id {n : Nat} (h : n < 2 ^ 32) : u32 n = n := Nat.mod_eq_of_lt h

private theorem pending_res {id size : Nat} {l : List BAct} (h : ¬ id < 5) :
    pendingRes (.res id size :: l) = (id, size) :: pendingRes l := by
  unfold pendingRes; rw [List.filterMap_cons]; simp only [if_neg h]

private theorem pending_old {id size : Nat} {l : List BAct} (h : id < 5) :
    pendingRes (.res id size :: l) = pendingRes l := by
  unfold pendingRes; rw [List.filterMap_cons]; simp only [if_pos h]

private theorem pending_use {u : RUse} {l : List BAct} : pendingRes (.use u :: l) = pendingRes l := rfl
private theorem pending_other {k : Nat} {l : List BAct} : pendingRes (.other k :: l) = pendingRes l := rfl

/-- Table entries cover `0 … n` one after the other. -/
private inductive Tab : List (Nat × Nat × Nat) → Nat → Prop
  | nil : Tab [] 0
  | cons {t n id size} : Tab t n → Tab ((id, n, size) :: t) (n + size)

private theorem Tab.le {t : List (Nat × Nat × Nat)} {n : Nat} (h : Tab t n) : ∀ e ∈ t, e.2.1 + e.2.2 ≤ n := by
  induction h with
  | nil => simp
  | cons _ ih =>
    intro e he
    rcases List.mem_cons.1 he with rfl | he
    · simp
    · have := ih e he; omega

private theorem Tab.disj {t : List (Nat × Nat × Nat)} {n : Nat} (h : Tab t n) :
    t.Pairwise (fun e f => f.2.1 + f.2.2 ≤ e.2.1) := by
  induction h with
  | nil => exact List.Pairwise.nil
  | cons h ih => exact List.pairwise_cons.2 ⟨fun e he => h.le e he, ih⟩

private theorem lookup_mem {t : List (Nat × Nat × Nat)} {id o size : Nat} (h : lookupRes t id = some (o, size)) :
    (id, o, size) ∈ t := by
  unfold lookupRes at h
  cases hf : t.find? (fun e => e.1 = id) with
  | none => rw [hf] at h; simp at h
  | some e =>
    rw [hf] at h
    simp only [Option.map_some, Option.some.injEq] at h
    have h1 := List.find?_some hf
    have h2 := List.mem_of_find?_eq_some hf
    simp only [decide_eq_true_eq] at h1
    obtain ⟨a, b, c⟩ := e
    simp only at h h1
    injection h with h3 h4
    subst h1; subst h3; subst h4
    exact h2

private theorem lookup_of_mem {t : List (Nat × Nat × Nat)} {id o size : Nat} (hn : (t.map (·.1)).Nodup) (h : (id, o, size) ∈ t) :
    lookupRes t id = some (o, size) := by
  induction t with
  | nil => simp at h
  | cons e t ih =>
    unfold lookupRes
    rw [List.find?_cons]
    rw [List.map_cons, List.nodup_cons] at hn
    rcases List.mem_cons.1 h with rfl | h
    · simp
    · have hne : e.1 ≠ id := fun he => hn.1 (List.mem_map.2 ⟨_, h, he.symm⟩)
      simp only [hne, decide_false]
      exact ih hn.2 h

/-- The offset of `id` in the table. -/
private def tabBase (t : List (Nat × Nat × Nat)) (id : Nat) : Nat := ((lookupRes t id).map (·.1)).getD 0

private theorem allocPass_spec (es rc bc : Nat) (l : List BAct) : ∀ n t acts n' t',
    Tab t n → n + ((pendingRes l).map (·.2)).sum < 2 ^ 32 →
    (t.map (·.1) ++ (pendingRes l).map (·.1)).Nodup →
    (∀ u, BAct.use u ∈ l → 5 ≤ u.bufID → u.count * es < 2 ^ 32) → 0 < es →
    allocPass es rc bc l n t = some (acts, n', t') →
    Tab t' n' ∧ n' = n + ((pendingRes l).map (·.2)).sum ∧
    t'.reverse.map (fun e => (e.1, e.2.2)) = t.reverse.map (fun e => (e.1, e.2.2)) ++ pendingRes l ∧
    (∃ s, t' = s ++ t) ∧
    acts.filter (fun a => !a.isRes) = l.filterMap (placed bc (tabBase t')) ∧
    (∀ u, BAct.use u ∈ l → 5 ≤ u.bufID → ∃ o size, (u.bufID, o, size) ∈ t' ∧ u.off + u.count * es ≤ size ∧ 0 < u.count) := by
  induction l with
  | nil =>
    intro n t acts n' t' ht _ _ _ _ h
    simp only [allocPass, Option.some.injEq, Prod.mk.injEq] at h
    obtain ⟨rfl, rfl, rfl⟩ := h
    exact ⟨ht, by simp [pendingRes], by simp [pendingRes], ⟨[], rfl⟩, rfl, by simp⟩
  | cons a l ih =>
    intro n t acts n' t' ht hsum hnd hcnt hes h
    have hcl : ∀ u, BAct.use u ∈ l → 5 ≤ u.bufID → u.count * es < 2 ^ 32 := fun u hu => hcnt u (List.mem_cons_of_mem _ hu)
    cases a with
    | res id size =>
      by_cases h5 : id < 5
      · rw [allocPass, if_pos h5] at h
        rw [pending_old h5] at hsum hnd ⊢
        obtain ⟨⟨acts1, n1, t1⟩, hr, he⟩ := Option.map_eq_some_iff.1 h
        simp only [Prod.mk.injEq] at he
        obtain ⟨rfl, rfl, rfl⟩ := he
        obtain ⟨k1, k2, k3, k4, k5, k6⟩ := ih n t acts1 n1 t1 ht hsum hnd hcl hes hr
        refine ⟨k1, k2, k3, k4, ?_, ?_⟩
        · rw [List.filter_cons_of_neg (by simp [BAct.isRes]), k5]
          rfl
        · intro u hu
          rcases List.mem_cons.1 hu with hu | hu
          · cases hu
          · exact k6 u hu
      · rw [allocPass, if_neg h5] at h
        rw [pending_res h5] at hsum hnd ⊢
        split at h
        · simp only [List.map_cons, List.sum_cons] at hsum hnd ⊢
          have hb : n + size < 2 ^ 32 := by omega
          rw [u32_id hb] at h
          obtain ⟨⟨acts1, n1, t1⟩, hr, he⟩ := Option.map_eq_some_iff.1 h
          simp only [Prod.mk.injEq] at he
          obtain ⟨rfl, rfl, rfl⟩ := he
          have hnd' : (List.map (·.1) ((id, n, size) :: t) ++ (pendingRes l).map (·.1)).Nodup := by
            rw [List.map_cons, List.cons_append]
            exact (List.perm_middle).nodup_iff.1 hnd
          obtain ⟨k1, k2, k3, k4, k5, k6⟩ := ih _ _ acts1 n1 t1 ht.cons (by omega) hnd' hcl hes hr
          refine ⟨k1, by omega, ?_, ?_, ?_, ?_⟩
          · rw [k3]; simp
          · obtain ⟨s, hs⟩ := k4
            exact ⟨s ++ [(id, n, size)], by rw [hs]; simp⟩
          · rw [List.filter_cons_of_neg (by simp [BAct.isRes]), k5]
            rfl
          · intro u hu
            rcases List.mem_cons.1 hu with hu | hu
            · cases hu
            · exact k6 u hu
        · exact absurd h (by simp)
    | other k =>
      rw [allocPass] at h
      rw [pending_other] at hsum hnd ⊢
      obtain ⟨⟨acts1, n1, t1⟩, hr, he⟩ := Option.map_eq_some_iff.1 h
      simp only [Prod.mk.injEq] at he
      obtain ⟨rfl, rfl, rfl⟩ := he
      obtain ⟨k1, k2, k3, k4, k5, k6⟩ := ih n t acts1 n1 t1 ht hsum hnd hcl hes hr
      refine ⟨k1, k2, k3, k4, ?_, ?_⟩
      · rw [List.filter_cons_of_pos (by simp [BAct.isRes]), k5]
        rfl
      · intro u hu
        rcases List.mem_cons.1 hu with hu | hu
        · cases hu
        · exact k6 u hu
    | use v =>
      rw [pending_use] at hsum hnd ⊢
      by_cases h5 : v.bufID < 5
      · rw [allocPass, if_pos h5] at h
        obtain ⟨⟨acts1, n1, t1⟩, hr, he⟩ := Option.map_eq_some_iff.1 h
        simp only [Prod.mk.injEq] at he
        obtain ⟨rfl, rfl, rfl⟩ := he
        obtain ⟨k1, k2, k3, k4, k5, k6⟩ := ih n t acts1 n1 t1 ht hsum hnd hcl hes hr
        refine ⟨k1, k2, k3, k4, ?_, ?_⟩
        · rw [List.filter_cons_of_pos (by simp [BAct.isRes]), k5, List.filterMap_cons]
          simp only [placed, if_pos h5]
        · intro u hu hu5
          rcases List.mem_cons.1 hu with hu | hu
          · injection hu with hu; subst hu; omega
          · exact k6 u hu hu5
      · rw [allocPass, if_neg h5] at h
        split at h
        · cases hl : lookupRes t v.bufID with
          | none => rw [hl] at h; simp at h
          | some os =>
            obtain ⟨o, size⟩ := os
            rw [hl] at h
            simp only at h
            have hc := hcnt v List.mem_cons_self (by omega)
            rw [u32_id hc] at h
            split at h
            · rename_i hcond
              obtain ⟨⟨acts1, n1, t1⟩, hr, he⟩ := Option.map_eq_some_iff.1 h
              simp only [Prod.mk.injEq] at he
              obtain ⟨rfl, rfl, rfl⟩ := he
              obtain ⟨k1, k2, k3, k4, k5, k6⟩ := ih n t acts1 n1 t1 ht hsum hnd hcl hes hr
              have hmem := lookup_mem hl
              have hle := ht.le _ hmem
              simp only at hle
              have hmem' : (v.bufID, o, size) ∈ t1 := by
                obtain ⟨s, hs⟩ := k4; rw [hs]; exact List.mem_append_right _ hmem
              have hnd1 : (t1.map (·.1)).Nodup := by
                have : (t1.reverse.map (fun e => (e.1, e.2.2))).map (·.1) = (t1.map (·.1)).reverse := by simp
                rw [← List.nodup_reverse, ← this, k3, List.map_append]
                simp only [List.map_reverse, List.map_map, Function.comp_def]
                have hp : ((t.map (·.1)).reverse ++ (pendingRes l).map (·.1)).Perm (t.map (·.1) ++ (pendingRes l).map (·.1)) :=
                  (List.reverse_perm _).append_right _
                exact hp.nodup_iff.2 hnd
              have hbase : tabBase t1 v.bufID = o := by
                unfold tabBase; rw [lookup_of_mem hnd1 hmem']; rfl
              refine ⟨k1, k2, k3, k4, ?_, ?_⟩
              · rw [List.filter_cons_of_pos (by simp [BAct.isRes]), k5, List.filterMap_cons]
                simp only [placed, if_neg h5, RUse.moved, hbase]
                have hpos : 0 < v.count * es := Nat.mul_pos hcond.1 hes
                rw [u32_id (show v.off + o < 2 ^ 32 by omega), Nat.add_comm v.off o]
              · intro u hu hu5
                rcases List.mem_cons.1 hu with hu | hu
                · injection hu with hu; subst hu
                  exact ⟨o, size, hmem', hcond.2, hcond.1⟩
                · exact k6 u hu hu5
            · exact absurd h (by simp)
        · exact absurd h (by simp)

/-- Reserved bytes in total. -/
def resBytes (l : List BAct) : Nat := ((pendingRes l).map (·.2)).sum

/-- **C23**, without 32-bit overflow.  If `laik_aseq_allocBuffer` allocates a
buffer, its size is the sum of all reservations, there is a place for each
reservation within the buffer such that places of different reservations are
disjoint, actions are moved into the place of their reservation, and stay
within it (for copy actions if the copy entries do).  What is missing: sizes and
counts of more than 2^32 bytes, for which it is false (see below). -/
theorem C23_alloc_partial (es : Nat) (s s' : BSeq) (hes : 0 < es)
    (hids : ((pendingRes s.acts).map (·.1)).Nodup) (hsum : resBytes s.acts < 2 ^ 32)
    (hcnt : ∀ u, BAct.use u ∈ s.acts → 5 ≤ u.bufID → u.count * es < 2 ^ 32)
    (h : allocBuffer es s = some (true, s')) :
    ∃ base : Nat → Nat,
      s'.bufs = s.bufs ++ [resBytes s.acts] ∧
      s'.acts = s.acts.filterMap (placed s.bufs.length base) ∧
      (∀ r ∈ pendingRes s.acts, base r.1 + r.2 ≤ resBytes s.acts) ∧
      (∀ r ∈ pendingRes s.acts, ∀ q ∈ pendingRes s.acts, r.1 ≠ q.1 → base r.1 + r.2 ≤ base q.1 ∨ base q.1 + q.2 ≤ base r.1) ∧
      (∀ u, BAct.use u ∈ s.acts → 5 ≤ u.bufID → ∃ r ∈ pendingRes s.acts, r.1 = u.bufID ∧
        ((∀ ce, u.ce = some ce → ∀ c ∈ ce, u.off + c.offset + c.bytes ≤ r.2) →
          ∀ x, (u.moved s.bufs.length (base u.bufID)).touches es x → base r.1 ≤ x ∧ x < base r.1 + r.2)) := by
  unfold allocBuffer at h
  split at h
  · simp at h
  · cases hp : allocPass es s.resCount s.bufs.length s.acts 0 [] with
    | none => rw [hp] at h; simp at h
    | some r =>
      obtain ⟨acts, n, t⟩ := r
      rw [hp] at h
      simp only at h
      split at h
      · simp at h
      · split at h
        · simp only [Option.some.injEq, Prod.mk.injEq, true_and] at h
          subst h
          obtain ⟨k1, k2, k3, _, k5, k6⟩ := allocPass_spec es s.resCount s.bufs.length s.acts 0 [] acts n t Tab.nil
            (by unfold resBytes at hsum; omega) (by simpa using hids) hcnt hes hp
          rw [List.reverse_nil, List.map_nil, List.nil_append] at k3
          have hn : n = resBytes s.acts := by unfold resBytes; omega
          have hnd : (t.map (·.1)).Nodup := by
            have : (t.reverse.map (fun e => (e.1, e.2.2))).map (·.1) = (t.map (·.1)).reverse := by simp
            rw [← List.nodup_reverse, ← this, k3]
            exact hids
          have hin : ∀ r ∈ pendingRes s.acts, ∃ o, (r.1, o, r.2) ∈ t ∧ tabBase t r.1 = o := by
            intro r hr
            rw [← k3] at hr
            obtain ⟨e, he, rfl⟩ := List.mem_map.1 hr
            have he := List.mem_reverse.1 he
            refine ⟨e.2.1, he, ?_⟩
            unfold tabBase
            rw [lookup_of_mem hnd he]; rfl
          refine ⟨tabBase t, by simp [hn], k5, ?_, ?_, ?_⟩
          · intro r hr
            obtain ⟨o, ho, hb⟩ := hin r hr
            have := k1.le _ ho
            simp only at this
            omega
          · intro r hr q hq hne
            obtain ⟨o, ho, hb⟩ := hin r hr
            obtain ⟨o', ho', hb'⟩ := hin q hq
            have := pairwise_or k1.disj ho ho' (by intro hh; injection hh with h1; exact hne h1)
            simp only at this
            omega
          · intro u hu h5
            obtain ⟨o, size, hm, hle, hpos⟩ := k6 u hu h5
            have hb : tabBase t u.bufID = o := by
              unfold tabBase; rw [lookup_of_mem hnd hm]; rfl
            refine ⟨(u.bufID, size), ?_, rfl, ?_⟩
            · rw [← k3]
              exact List.mem_map.2 ⟨_, List.mem_reverse.2 hm, rfl⟩
            · intro hce x hx
              simp only
              unfold RUse.touches RUse.moved at hx
              cases hc : u.ce with
              | none =>
                simp only [hc] at hx
                omega
              | some ce =>
                simp only [hc] at hx
                obtain ⟨c, hcm, h1, h2⟩ := hx
                have := hce ce hc c hcm
                simp only at this
                omega
        · simp at h

/-- **C23**: actions of different reservations use different bytes. -/
theorem C23_disjoint_partial (es : Nat) (s s' : BSeq) (hes : 0 < es)
    (hids : ((pendingRes s.acts).map (·.1)).Nodup) (hsum : resBytes s.acts < 2 ^ 32)
    (hcnt : ∀ u, BAct.use u ∈ s.acts → 5 ≤ u.bufID → u.count * es < 2 ^ 32)
    (hce : ∀ u, BAct.use u ∈ s.acts → 5 ≤ u.bufID → ∀ r ∈ pendingRes s.acts, r.1 = u.bufID →
      ∀ ce, u.ce = some ce → ∀ c ∈ ce, u.off + c.offset + c.bytes ≤ r.2)
    (h : allocBuffer es s = some (true, s')) :
    ∃ base : Nat → Nat, s'.acts = s.acts.filterMap (placed s.bufs.length base) ∧
      ∀ u v, BAct.use u ∈ s.acts → BAct.use v ∈ s.acts → 5 ≤ u.bufID → 5 ≤ v.bufID → ∀ x,
        (u.moved s.bufs.length (base u.bufID)).touches es x →
        x < resBytes s.acts ∧ (u.bufID ≠ v.bufID → ¬ (v.moved s.bufs.length (base v.bufID)).touches es x) := by
  obtain ⟨base, _, h2, h3, h4, h5⟩ := C23_alloc_partial es s s' hes hids hsum hcnt h
  refine ⟨base, h2, ?_⟩
  intro u v hu hv hu5 hv5 x hx
  obtain ⟨r, hr, hru, hr'⟩ := h5 u hu hu5
  obtain ⟨q, hq, hqv, hq'⟩ := h5 v hv hv5
  have hxr := hr' (hce u hu hu5 r hr hru) x hx
  refine ⟨by have := h3 r hr; omega, ?_⟩
  intro hne hy
  have hyq := hq' (hce v hv hv5 q hq hqv) x hy
  have := h4 r hr q hq (by rw [hru, hqv]; exact hne)
  omega

/-! ### No abort -/

/-- Each action using a reservation comes after it and stays within it. -/
def UsesFit (es : Nat) (l : List BAct) : Prop :=
  ∀ l1 u l2, l = l1 ++ BAct.use u :: l2 → 5 ≤ u.bufID →
    ∃ size, (u.bufID, size) ∈ pendingRes l1 ∧ 0 < u.count ∧ u.off + u.count * es ≤ size

/-- Reservations have the IDs given by `laik_aseq_addBufReserve`. -/
def FreshIDs (s : BSeq) : Prop := (pendingRes s.acts).map (·.1) = List.range' 100 s.resCount

private theorem allocPass_ok (es rc bc : Nat) (l : List BAct) : ∀ l1 n t,
    t.reverse.map (fun e => (e.1, e.2.2)) = pendingRes l1 →
    (∀ r ∈ pendingRes l, 100 ≤ r.1 ∧ r.1 < 100 + rc) → (∀ r ∈ pendingRes l1, 100 ≤ r.1 ∧ r.1 < 100 + rc) →
    ((pendingRes l1).map (·.1)).Nodup → ((pendingRes (l1 ++ l)).map (·.1)).Nodup → UsesFit es (l1 ++ l) →
    (∀ u, BAct.use u ∈ l → 5 ≤ u.bufID → u.count * es < 2 ^ 32) →
    ∃ acts n' t', allocPass es rc bc l n t = some (acts, n', t') ∧ t'.length = t.length + (pendingRes l).length := by
  induction l with
  | nil => intro l1 n t _ _ _ _ _ _ _; exact ⟨_, _, _, rfl, rfl⟩
  | cons a l ih =>
    intro l1 n t ht hids hids1 hnd1 hnd hfit hcnt
    have happ : l1 ++ a :: l = (l1 ++ [a]) ++ l := by simp
    have hp1 : pendingRes (l1 ++ [a]) = pendingRes l1 ++ pendingRes [a] := List.filterMap_append
    have hcl : ∀ u, BAct.use u ∈ l → 5 ≤ u.bufID → u.count * es < 2 ^ 32 := fun u hu => hcnt u (List.mem_cons_of_mem _ hu)
    cases a with
    | other k =>
      rw [pending_other] at hids ⊢
      have e : pendingRes (l1 ++ [.other k]) = pendingRes l1 := by rw [hp1, pending_other]; simp [pendingRes]
      obtain ⟨x, y, z, h1, h2⟩ := ih (l1 ++ [.other k]) n t (by rw [e]; exact ht) hids (by rw [e]; exact hids1)
        (by rw [e]; exact hnd1) (by rw [← happ]; exact hnd) (by rw [← happ]; exact hfit) hcl
      exact ⟨_, _, _, by rw [allocPass, h1]; rfl, h2⟩
    | res id size =>
      by_cases h5 : id < 5
      · rw [pending_old h5] at hids ⊢
        have e : pendingRes (l1 ++ [.res id size]) = pendingRes l1 := by rw [hp1, pending_old h5]; simp [pendingRes]
        obtain ⟨x, y, z, h1, h2⟩ := ih (l1 ++ [.res id size]) n t (by rw [e]; exact ht) hids (by rw [e]; exact hids1)
          (by rw [e]; exact hnd1) (by rw [← happ]; exact hnd) (by rw [← happ]; exact hfit) hcl
        exact ⟨_, _, _, by rw [allocPass, if_pos h5, h1]; rfl, h2⟩
      · rw [pending_res h5] at hids ⊢
        have e : pendingRes (l1 ++ [.res id size]) = pendingRes l1 ++ [(id, size)] := by rw [hp1, pending_res h5]; simp [pendingRes]
        have hid := hids (id, size) List.mem_cons_self
        simp only at hid
        have hnd2 : ((pendingRes (l1 ++ [.res id size])).map (·.1)).Nodup := by
          rw [happ] at hnd
          have : pendingRes ((l1 ++ [.res id size]) ++ l) = pendingRes (l1 ++ [.res id size]) ++ pendingRes l := List.filterMap_append
          rw [this, List.map_append] at hnd
          exact (List.nodup_append.1 hnd).1
        obtain ⟨x, y, z, h1, h2⟩ := ih (l1 ++ [.res id size]) (u32 (n + size)) ((id, n, size) :: t)
          (by rw [e, ← ht]; simp) (fun r hr => hids r (List.mem_cons_of_mem _ hr))
          (by rw [e]; intro r hr
              rcases List.mem_append.1 hr with hr | hr
              · exact hids1 r hr
              · rw [List.mem_singleton] at hr; subst hr; exact hid)
          hnd2 (by rw [← happ]; exact hnd) (by rw [← happ]; exact hfit) hcl
        refine ⟨_, _, _, by rw [allocPass, if_neg h5, if_pos hid, h1]; rfl, ?_⟩
        simp only [List.length_cons] at h2 ⊢
        omega
    | use u =>
      rw [pending_use] at hids ⊢
      have e : pendingRes (l1 ++ [.use u]) = pendingRes l1 := by rw [hp1, pending_use]; simp [pendingRes]
      obtain ⟨x, y, z, h1, h2⟩ := ih (l1 ++ [.use u]) n t (by rw [e]; exact ht) hids (by rw [e]; exact hids1)
        (by rw [e]; exact hnd1) (by rw [← happ]; exact hnd) (by rw [← happ]; exact hfit) hcl
      by_cases h5 : u.bufID < 5
      · exact ⟨_, _, _, by rw [allocPass, if_pos h5, h1]; rfl, h2⟩
      · obtain ⟨size, hm, hpos, hle⟩ := hfit l1 u l rfl (by omega)
        have hid := hids1 _ hm
        simp only at hid
        have hm2 := hm
        rw [← ht] at hm2
        obtain ⟨e2, he2, heq⟩ := List.mem_map.1 hm2
        obtain ⟨i2, o2, s2⟩ := e2
        simp only [Prod.mk.injEq] at heq
        obtain ⟨rfl, rfl⟩ := heq
        have hndt : (t.map (·.1)).Nodup := by
          have : (t.reverse.map (fun e => (e.1, e.2.2))).map (·.1) = (t.map (·.1)).reverse := by simp
          rw [← List.nodup_reverse, ← this, ht]
          exact hnd1
        have hlk := lookup_of_mem hndt (List.mem_reverse.1 he2)
        have hc := u32_id (hcnt u List.mem_cons_self (by omega))
        refine ⟨BAct.use { u with bufID := bc, off := u32 (u.off + o2) } :: x, y, z, ?_, h2⟩
        rw [allocPass, if_neg h5, if_pos hid, hlk]
        simp only
        rw [hc, if_pos ⟨hpos, hle⟩, h1]
        rfl

/-- **C23**: allocation does not abort, and allocates if any bytes are reserved. -/
theorem C23_no_abort_partial (es : Nat) (s : BSeq) (hb : s.bufs.length < 5) (hids : FreshIDs s) (hfit : UsesFit es s.acts)
    (hes : 0 < es) (hsum : resBytes s.acts < 2 ^ 32) :
    ∃ s', allocBuffer es s = some (decide (0 < resBytes s.acts), s') := by
  have hnd : ((pendingRes s.acts).map (·.1)).Nodup := by rw [hids]; exact List.nodup_range'
  have hmem : ∀ r ∈ pendingRes s.acts, 100 ≤ r.1 ∧ r.1 < 100 + s.resCount := by
    intro r hr
    have : r.1 ∈ (pendingRes s.acts).map (·.1) := List.mem_map.2 ⟨r, hr, rfl⟩
    rw [hids, List.mem_range'_1] at this
    exact this
  have hle : ∀ r ∈ pendingRes s.acts, r.2 ≤ resBytes s.acts := by
    intro r hr
    unfold resBytes
    obtain ⟨a, b, hab⟩ := List.append_of_mem hr
    rw [hab]
    simp only [List.map_append, List.map_cons, List.sum_append, List.sum_cons]
    omega
  have hcnt : ∀ u, BAct.use u ∈ s.acts → 5 ≤ u.bufID → u.count * es < 2 ^ 32 := by
    intro u hu h5
    obtain ⟨l1, l2, hl⟩ := List.append_of_mem hu
    obtain ⟨size, hm, _, h2⟩ := hfit l1 u l2 hl h5
    have hm2 : (u.bufID, size) ∈ pendingRes s.acts := by
      rw [hl]
      have : pendingRes (l1 ++ BAct.use u :: l2) = pendingRes l1 ++ pendingRes (BAct.use u :: l2) := List.filterMap_append
      rw [this]
      exact List.mem_append_left _ hm
    have := hle _ hm2
    simp only at this
    omega
  obtain ⟨acts, n, t, h1, h2⟩ := allocPass_ok es s.resCount s.bufs.length s.acts [] 0 [] rfl hmem (by simp [pendingRes])
    (by simp [pendingRes]) hnd hfit hcnt
  obtain ⟨_, k2, _⟩ := allocPass_spec es s.resCount s.bufs.length s.acts 0 [] acts n t Tab.nil
    (by unfold resBytes at hsum; omega) (by simpa using hnd) hcnt hes h1
  have hn : n = resBytes s.acts := by unfold resBytes; omega
  have hlen : t.length = s.resCount := by
    rw [h2]
    have := congrArg List.length hids
    rw [List.length_map, List.length_range'] at this
    simp [this]
  unfold allocBuffer
  rw [if_neg (by omega), h1]
  simp only
  by_cases h0 : n = 0
  · rw [if_pos h0]
    exact ⟨_, by rw [← hn, h0]; rfl⟩
  · rw [if_neg h0, if_pos hlen]
    rw [decide_eq_true (show 0 < resBytes s.acts by omega)]
    exact ⟨_, rfl⟩

/-! ### Sequences built by the library -/

theorem C23_ids_reserve (s : BSeq) (size : Nat) (h : FreshIDs s) : FreshIDs (addBufReserve s size).1 := by
  unfold FreshIDs addBufReserve at *
  have : pendingRes (s.acts ++ [.res (s.resCount + 100) (u32 size)]) = pendingRes s.acts ++ [(s.resCount + 100, u32 size)] := by
    have e : pendingRes (s.acts ++ [.res (s.resCount + 100) (u32 size)]) = pendingRes s.acts ++ pendingRes [.res (s.resCount + 100) (u32 size)] := List.filterMap_append
    rw [e, pending_res (by omega)]
    rfl
  simp only [this, List.map_append, h]
  rw [List.range'_concat]
  simp [Nat.add_comm]

theorem C23_ids_use (s : BSeq) (u : RUse) (h : FreshIDs s) : FreshIDs (addUse s u) := by
  unfold FreshIDs addUse at *
  have e : pendingRes (s.acts ++ [.use u]) = pendingRes s.acts ++ pendingRes [.use u] := List.filterMap_append
  simp only [e, pending_use]
  rw [← h]
  simp [pendingRes]

theorem C23_ids_alloc (es : Nat) (s s' : BSeq) (h : allocBuffer es s = some (true, s')) : FreshIDs s' := by
  unfold allocBuffer at h
  split at h
  · simp at h
  · split at h
    · simp at h
    · split at h
      · simp at h
      · split at h
        · simp only [Option.some.injEq, Prod.mk.injEq, true_and] at h
          subst h
          unfold FreshIDs
          simp only [List.range'_zero]
          rw [List.map_eq_nil_iff]
          unfold pendingRes
          rw [List.filterMap_eq_nil_iff]
          intro a ha
          rw [List.mem_filter] at ha
          cases a <;> simp [BAct.isRes] at ha ⊢
        · simp at h

/-- Never more than the five buffers a sequence has room for: a call that does not abort
found less than five and leaves at most five. -/
theorem C23_five_buffers (es : Nat) (s s' : BSeq) (b : Bool) (h : allocBuffer es s = some (b, s')) :
    s.bufs.length < 5 ∧ s'.bufs.length ≤ 5 := by
  unfold allocBuffer at h
  split at h
  · simp at h
  · rename_i h5
    split at h
    · simp at h
    · split at h
      · injection h with h
        injection h with _ h
        subst h
        exact ⟨by omega, by simp; omega⟩
      · split at h
        · injection h with h
          injection h with _ h
          subst h
          exact ⟨by omega, by simp; omega⟩
        · simp at h

example : allocBuffer 8 ⟨[.res 100 8, .use ⟨100, 0, 1, none⟩], 1, [4, 4, 4, 4]⟩ =
    some (true, ⟨[.use ⟨4, 0, 1, none⟩], 0, [4, 4, 4, 4, 8]⟩) := by decide

example : allocBuffer 8 ⟨[.res 100 8, .use ⟨100, 0, 1, none⟩], 1, [4, 4, 4, 4, 4]⟩ = none := by decide

/-! ### Copy entries of combined actions -/

private theorem entries_bound {β : Type} (es : Nat) (ptr : CAct β → Nat) (g : List (CAct β)) : ∀ off, ∀ c ∈ entries es ptr off g,
    c.offset + c.bytes ≤ (off + sumCount g) * es := by
  induction g with
  | nil => intro off c hc; simp [entries] at hc
  | cons a g ih =>
    intro off c hc
    simp only [entries, List.mem_cons] at hc
    have e : sumCount (a :: g) = a.count + sumCount g := by simp [sumCount]
    rcases hc with rfl | hc
    · simp only [e]
      rw [← Nat.add_mul]
      exact Nat.mul_le_mul_right _ (by omega)
    · have := ih _ c hc
      rw [e, ← Nat.add_assoc]
      exact this

/-- Bytes of the buffer used by an action after combining. -/
def CItem.bufBound {β : Type} (es : Nat) : CItem β → Nat → Prop
  | .act _, _ => True
  | .copyTo ce, n => ∀ c ∈ ce, c.offset + c.bytes ≤ n
  | .copyFrom ce, n => ∀ c ∈ ce, c.offset + c.bytes ≤ n
  | .rcomm _ off count, n => off + count * es ≤ n

private theorem combGo_bound {β : Type} (e : CEnv) (l : List (CAct β)) : ∀ seen off, ∀ y ∈ (combGo e seen off l).1,
    y.2.bufBound e.elemsize ((combGo e seen off l).2 * e.elemsize) := by
  induction l with
  | nil => intro seen off y hy; simp [combGo] at hy
  | cons a l ih =>
    intro seen off y hy
    cases hb : a.body with
    | other op =>
      have e1 : combGo e seen off (a :: l) = ((3 * a.round + 1, .act (.other op)) :: (combGo e seen off l).1, (combGo e seen off l).2) := by
        rw [combGo]; simp only [hb]
      rw [e1] at hy ⊢
      rcases List.mem_cons.1 hy with rfl | hy
      · trivial
      · exact ih _ _ y hy
    | comm k sr d c =>
      by_cases cs : (a.round, k) ∈ seen
      · have e1 : combGo e seen off (a :: l) = combGo e seen off l := by
          rw [combGo]; simp only [hb, if_pos cs]
        rw [e1] at hy ⊢
        exact ih _ _ y hy
      · by_cases cl : (a :: l.filter (CAct.same a.round k)).length > 1
        · have e1 : combGo e seen off (a :: l) = (emitGroup e a.round k off (a :: l.filter (CAct.same a.round k)) ++
              (combGo e ((a.round, k) :: seen) (off + sumCount (a :: l.filter (CAct.same a.round k))) l).1,
              (combGo e ((a.round, k) :: seen) (off + sumCount (a :: l.filter (CAct.same a.round k))) l).2) := by
            rw [combGo]; simp only [hb, if_neg cs, if_pos cl]
          rw [e1] at hy ⊢
          have hle := combGo_le e l ((a.round, k) :: seen) (off + sumCount (a :: l.filter (CAct.same a.round k)))
          have hm := Nat.mul_le_mul_right e.elemsize hle
          rcases List.mem_append.1 hy with hy | hy
          · unfold emitGroup at hy
            simp only [List.mem_append, List.mem_singleton] at hy
            rcases hy with (hy | hy) | hy
            · split at hy
              · rw [List.mem_singleton] at hy; subst hy
                intro c hc
                exact Nat.le_trans (entries_bound _ _ _ _ c hc) hm
              · simp at hy
            · subst hy
              simp only [CItem.bufBound]
              rw [← Nat.add_mul]
              exact hm
            · split at hy
              · rw [List.mem_singleton] at hy; subst hy
                intro c hc
                exact Nat.le_trans (entries_bound _ _ _ _ c hc) hm
              · simp at hy
          · exact ih _ _ y hy
        · have e1 : combGo e seen off (a :: l) = ((3 * a.round + 1, .act (.comm k sr d c)) ::
              (combGo e ((a.round, k) :: seen) off l).1, (combGo e ((a.round, k) :: seen) off l).2) := by
            rw [combGo]; simp only [hb, if_neg cs, if_neg cl]
          rw [e1] at hy ⊢
          rcases List.mem_cons.1 hy with rfl | hy
          · trivial
          · exact ih _ _ y hy

/-- **C23**: combined actions and their copy entries stay within the reservation
of `n` elements made for them. -/
theorem C23_combine_within {β : Type} (e : CEnv) (l : List (CAct β)) (n : Nat) (c : List (Nat × CItem β))
    (hc : combine e l = some (.new n c)) : ∀ y ∈ c, y.2.bufBound e.elemsize (n * e.elemsize) := by
  simp only [combine] at hc
  split at hc
  · split at hc <;> simp at hc
  · split at hc
    · rename_i h
      injection hc with hc
      injection hc with h1 h2
      intro y hy
      rw [← h2] at hy
      have := combGo_bound e l [] 0 y hy
      rw [← h.2, h1] at this
      exact this
    · simp at hc

/-! ### Disagreements -/

/-- Reservations of 2^31, 2^31 and 8 bytes: sizes are summed up with 32 bits, so
only 8 bytes are allocated, the second action uses bytes outside of the buffer
and the first and third use the same bytes.  No assert fails. -/
theorem C23_wrap_overlap :
    let s := (addBufReserve (addBufReserve (addBufReserve ⟨[], 0, []⟩ (2 ^ 31)).1 (2 ^ 31)).1 8).1
    let s := addUse (addUse (addUse s ⟨100, 0, 2 ^ 28, none⟩) ⟨101, 0, 2 ^ 28, none⟩) ⟨102, 0, 1, none⟩
    FreshIDs s ∧ UsesFit 8 s.acts ∧
    allocBuffer 8 s = some (true, ⟨[.use ⟨0, 0, 2 ^ 28, none⟩, .use ⟨0, 2 ^ 31, 2 ^ 28, none⟩, .use ⟨0, 0, 1, none⟩], 0, [8]⟩) := by
  refine ⟨by unfold FreshIDs; decide, ?_, by decide⟩
  intro l1 u l2 h h5
  match l1, h with
  | [], h => simp [addUse, addBufReserve] at h
  | [_], h => simp [addUse, addBufReserve] at h
  | [_, _], h => simp [addUse, addBufReserve] at h
  | [_, _, _], h => simp [addUse, addBufReserve] at h; obtain ⟨rfl, rfl, rfl, rfl, _⟩ := h; exact ⟨2 ^ 31, by decide, by decide, by decide⟩
  | [_, _, _, _], h => simp [addUse, addBufReserve] at h; obtain ⟨rfl, rfl, rfl, rfl, rfl, _⟩ := h; exact ⟨2 ^ 31, by decide, by decide, by decide⟩
  | [_, _, _, _, _], h => simp [addUse, addBufReserve] at h; obtain ⟨rfl, rfl, rfl, rfl, rfl, rfl, _⟩ := h; exact ⟨8, by decide, by decide, by decide⟩
  | _ :: _ :: _ :: _ :: _ :: _ :: l, h => simp [addUse, addBufReserve] at h

/-- Packing 2^29 elements of 8 bytes (src/action.c 1928-1932): the requested size
wraps to 0, the check of the size wraps as well, no buffer is allocated and the
pack action is left with a reference to buffer 0 which does not exist. -/
theorem C23_wrap_no_buffer :
    let s := addUse (addBufReserve ⟨[], 0, []⟩ (2 ^ 29 * 8)).1 ⟨100, 0, 2 ^ 29, none⟩
    allocBuffer 8 s = some (false, ⟨[.res 0 0, .use ⟨0, 0, 2 ^ 29, none⟩], 1, []⟩) := by decide

/-! ### Example -/

def allocDemo : BSeq :=
  addUse (addUse (addBufReserve (addBufReserve ⟨[.use ⟨0, 16, 1, none⟩], 0, [64]⟩ 24).1 16).1 ⟨101, 8, 1, none⟩)
    ⟨100, 0, 2, some [⟨1000, 16, 8⟩, ⟨2000, 8, 0⟩]⟩

example : FreshIDs allocDemo ∧ ((pendingRes allocDemo.acts).map (·.1)).Nodup ∧ resBytes allocDemo.acts = 40 := by
  unfold FreshIDs; decide
example : allocBuffer 8 allocDemo = some (true, ⟨[.use ⟨0, 16, 1, none⟩, .use ⟨1, 32, 1, none⟩,
    .use ⟨1, 0, 2, some [⟨1000, 16, 8⟩, ⟨2000, 8, 0⟩]⟩], 0, [64, 40]⟩) := by decide

end Laik
