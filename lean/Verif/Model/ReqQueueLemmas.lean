import Verif.Model.ReqQueue
import Mathlib.Data.List.Perm.Basic
import Mathlib.Data.List.Nodup
/-!
# Lemmas on the queue of resize requests
-/

namespace Laik.Rsz

theorem regsOf_append (a b : List Ev) : regsOf (a ++ b) = regsOf a ++ regsOf b := by
  induction a with
  | nil => rfl
  | cons e a ih => cases e <;> simp [regsOf, ih]

theorem join_mem {es : List Ev} {fd : Nat} : Rq.join fd ∈ es.flatMap Ev.reqs → fd ∈ regsOf es := by
  intro h
  obtain ⟨e, h1, h2⟩ := List.mem_flatMap.1 h
  clear h
  induction es with
  | nil => simp at h1
  | cons x es ih =>
    rcases List.mem_cons.1 h1 with h | h
    · subst h
      cases e with
      | reg f =>
        simp only [Ev.reqs, List.mem_singleton] at h2
        cases h2
        simp [regsOf]
      | cut ls => simp [Ev.reqs] at h2
      | early f ls => simp [Ev.reqs] at h2
      | close f => simp [Ev.reqs] at h2
    · have := ih h
      cases x <;> simp [regsOf, this]

theorem addAll_queue : ∀ (rs : List Rq) (q q' : Option (List Rq)), addAll q rs = some q' →
    q'.getD [] = q.getD [] ++ rs := by
  intro rs
  induction rs with
  | nil => intro q q' h; cases h; simp
  | cons r rs ih =>
    intro q q' h
    simp only [addAll, addReq] at h
    by_cases hl : (q.getD []).length < maxReqs
    · rw [if_pos hl, Option.bind_some] at h
      rw [ih _ _ h]
      simp
    · rw [if_neg hl] at h; cases h

theorem addAll_some : ∀ (rs : List Rq) (q q' : Option (List Rq)), addAll q rs = some q' →
    q.isSome = true → q'.isSome = true := by
  intro rs
  induction rs with
  | nil => intro q q' h h2; cases h; exact h2
  | cons r rs ih =>
    intro q q' h _
    simp only [addAll, addReq] at h
    by_cases hl : (q.getD []).length < maxReqs
    · rw [if_pos hl, Option.bind_some] at h
      exact ih _ _ h rfl
    · rw [if_neg hl] at h; cases h

theorem wait1_upd_ne {fs : Nat → FS} {fd k : Nat} {v : FS} (h : k ≠ fd) :
    wait1 (upd fs fd v) k = wait1 fs k := by
  simp [wait1, upd, h]

theorem flatMap_upd {fs : Nat → FS} {fd : Nat} {v : FS} (h0 : wait1 fs fd = []) :
    ∀ L : List Nat, L.Nodup → fd ∈ L →
    (L.flatMap (wait1 (upd fs fd v))).Perm (L.flatMap (wait1 fs) ++ wait1 (upd fs fd v) fd) := by
  intro L
  induction L with
  | nil => intro _ h; simp at h
  | cons a L ih =>
    intro hn hm
    obtain ⟨h1, h2⟩ := List.nodup_cons.1 hn
    by_cases ha : a = fd
    · subst ha
      have hsame : L.flatMap (wait1 (upd fs a v)) = L.flatMap (wait1 fs) := by
        apply List.flatMap_congr
        intro k hk
        exact wait1_upd_ne (fun h => h1 (h ▸ hk))
      rw [List.flatMap_cons, List.flatMap_cons, hsame, h0, List.nil_append]
      exact List.perm_append_comm
    · rw [List.flatMap_cons, List.flatMap_cons, wait1_upd_ne ha, List.append_assoc]
      apply List.Perm.append_left
      refine ih h2 ?_
      rcases List.mem_cons.1 hm with h | h
      · exact absurd h.symm ha
      · exact h

/-- All requests are somewhere, once. -/
structure QInv (rg0 : Nat → Bool) (es : List Ev) (s : Qs) : Prop where
  perm : (s.served ++ s.queue ++ s.waiting).Perm (es.flatMap Ev.reqs)
  regd : ∀ fd, s.regd fd = true → rg0 fd = true ∨ fd ∈ regsOf es

theorem evStep_inv {rg0 : Nat → Bool} {es : List Ev} {s s' : Qs} {e : Ev} (hs : QInv rg0 es s)
    (h : evStep s e = some s') (hc : e.isClose = false)
    (hf : ∀ fd, e = .reg fd → fd ∉ regsOf es ∧ rg0 fd = false) : QInv rg0 (es ++ [e]) s' := by
  have hreq : (es ++ [e]).flatMap Ev.reqs = es.flatMap Ev.reqs ++ e.reqs := by simp
  cases e with
  | close fd => simp [Ev.isClose] at hc
  | cut ls =>
    simp only [evStep] at h
    cases ha : addAll s.q (ls.map .remove) with
    | none => rw [ha] at h; cases h
    | some q =>
      rw [ha] at h
      cases h
      constructor
      · rw [hreq]
        have : Qs.queue { s with q := q } = s.queue ++ ls.map .remove := addAll_queue _ _ _ ha
        rw [this]
        show (s.served ++ (s.queue ++ ls.map Rq.remove) ++ s.waiting).Perm (_ ++ ls.map Rq.remove)
        refine List.Perm.trans ?_ (hs.perm.append_right _)
        rw [List.append_assoc, List.append_assoc, List.append_assoc, List.append_assoc]
        exact (List.perm_append_comm.append_left _).append_left _
      · intro fd hfd
        rcases hs.regd fd hfd with h | h
        · exact .inl h
        · right; rw [regsOf_append]; exact List.mem_append_left _ h
  | reg fd =>
    obtain ⟨f1, f2⟩ := hf fd rfl
    simp only [evStep] at h
    by_cases hlt : fd < maxFds
    · rw [if_pos hlt] at h
      by_cases hr : s.regd fd = true
      · rcases hs.regd fd hr with h' | h'
        · rw [f2] at h'; cases h'
        · exact absurd h' f1
      · rw [if_neg hr] at h
        by_cases hi : s.fs fd = .idle ∨ s.fs fd = .cut none
        · rw [if_pos hi] at h
          cases h
          have h0 : wait1 s.fs fd = [] := by
            unfold wait1
            rcases hi with hi | hi <;> rw [hi]
          have hw : Qs.waiting { s with fs := upd s.fs fd .reg } =
              (List.range maxFds).flatMap (wait1 (upd s.fs fd .reg)) := rfl
          have hp := flatMap_upd (v := .reg) h0 (List.range maxFds) List.nodup_range (List.mem_range.2 hlt)
          have hv : wait1 (upd s.fs fd .reg) fd = [.join fd] := by simp [wait1, upd]
          rw [hv] at hp
          constructor
          · rw [hreq, hw]
            refine (hp.append_left _).trans ?_
            rw [← List.append_assoc]
            exact hs.perm.append_right _
          · intro k hk
            rcases hs.regd k hk with h | h
            · exact .inl h
            · right; rw [regsOf_append]; exact List.mem_append_left _ h
        · rw [if_neg hi] at h; cases h
    · rw [if_neg hlt] at h; cases h
  | early fd ls =>
    simp only [evStep] at h
    by_cases hi : fd < maxFds ∧ (s.fs fd = .idle ∨ s.fs fd = .cut none)
    · rw [if_pos hi] at h
      cases h
      have h0 : wait1 s.fs fd = [] := by
        unfold wait1
        rcases hi.2 with hi | hi <;> rw [hi]
      have hw : Qs.waiting { s with fs := upd s.fs fd (.cut (some ls)) } =
          (List.range maxFds).flatMap (wait1 (upd s.fs fd (.cut (some ls)))) := rfl
      have hp := flatMap_upd (v := .cut (some ls)) h0 (List.range maxFds) List.nodup_range
        (List.mem_range.2 hi.1)
      have hv : wait1 (upd s.fs fd (.cut (some ls))) fd = ls.map .remove := by simp [wait1, upd]
      rw [hv] at hp
      constructor
      · rw [hreq, hw]
        refine (hp.append_left _).trans ?_
        rw [← List.append_assoc]
        exact hs.perm.append_right _
      · intro k hk
        rcases hs.regd k hk with h | h
        · exact .inl h
        · right; rw [regsOf_append]; exact List.mem_append_left _ h
    · rw [if_neg hi] at h; cases h

theorem evs_inv {rg0 : Nat → Bool} : ∀ (e2 : List Ev) (es : List Ev) (s s' : Qs), QInv rg0 es s →
    evs s e2 = some s' → (∀ e ∈ e2, e.isClose = false) → (regsOf (es ++ e2)).Nodup →
    (∀ fd ∈ regsOf e2, rg0 fd = false) → QInv rg0 (es ++ e2) s' := by
  intro e2
  induction e2 with
  | nil => intro es s s' hs h _ _ _; cases h; rw [List.append_nil]; exact hs
  | cons e e2 ih =>
    intro es s s' hs h hc hn hr
    simp only [evs] at h
    cases he : evStep s e with
    | none => rw [he] at h; cases h
    | some s1 =>
      rw [he, Option.bind_some] at h
      have h1 := evStep_inv hs he (hc e (by simp)) (by
        intro fd hfd
        subst hfd
        rw [regsOf_append] at hn
        simp only [regsOf] at hn hr
        exact ⟨fun hm => (List.nodup_append.1 hn).2.2 fd hm fd (by simp) rfl, hr fd (by simp)⟩)
      have := ih (es ++ [e]) s1 s' h1 h (fun x hx => hc x (List.mem_cons_of_mem _ hx))
        (by rw [List.append_assoc]; exact hn)
        (fun fd hfd => hr fd (by cases e <;> simp [regsOf, hfd]))
      rw [List.append_assoc] at this
      exact this

theorem progL_spec : ∀ (L : List Nat) (s s' : Qs), L.Nodup → progL s L = some s' →
    s'.queue = s.queue ++ L.flatMap (wait1 s.fs) ∧ (∀ fd ∈ L, wait1 s'.fs fd = []) ∧
    (∀ fd, fd ∉ L → s'.fs fd = s.fs fd) ∧ s'.served = s.served ∧ s'.regd = s.regd ∧ s'.w = s.w ∧
    (s.q.isSome = true → s'.q.isSome = true) := by
  intro L
  induction L with
  | nil => intro s s' _ h; cases h; simp
  | cons a L ih =>
    intro s s' hn h
    obtain ⟨ha, hn⟩ := List.nodup_cons.1 hn
    simp only [progL] at h
    cases hp : progStep s a with
    | none => rw [hp] at h; cases h
    | some s1 =>
      rw [hp, Option.bind_some] at h
      obtain ⟨i1, i2, i3, i4, i5, i6, i7⟩ := ih s1 s' hn h
      -- one step
      have hstep : s1.queue = s.queue ++ wait1 s.fs a ∧ wait1 s1.fs a = [] ∧
          (∀ fd, fd ≠ a → s1.fs fd = s.fs fd) ∧ s1.served = s.served ∧ s1.regd = s.regd ∧ s1.w = s.w ∧
          (s.q.isSome = true → s1.q.isSome = true) := by
        unfold progStep at hp
        cases hf : s.fs a with
        | idle => rw [hf] at hp; cases hp; simp [wait1, hf]
        | reg2 => rw [hf] at hp; cases hp; simp [wait1, hf]
        | reg =>
          rw [hf] at hp
          simp only [addReq] at hp
          by_cases hl : (s.q.getD []).length < maxReqs
          · rw [if_pos hl] at hp
            cases hp
            refine ⟨?_, ?_, ?_, rfl, rfl, rfl, fun _ => rfl⟩
            · simp [Qs.queue, wait1, hf]
            · simp [wait1, upd]
            · intro fd hfd; simp [upd, hfd]
          · rw [if_neg hl] at hp; cases hp
        | cut o =>
          rw [hf] at hp
          cases o with
          | none => cases hp
          | some ls =>
            simp only at hp
            cases ha : addAll s.q (ls.map .remove) with
            | none => rw [ha] at hp; cases hp
            | some q =>
              rw [ha] at hp
              cases hp
              refine ⟨?_, ?_, ?_, rfl, rfl, rfl, addAll_some _ _ _ ha⟩
              · simp only [Qs.queue, wait1, hf]
                exact addAll_queue _ _ _ ha
              · simp [wait1, upd]
              · intro fd hfd; simp [upd, hfd]
      obtain ⟨j1, j2, j3, j4, j5, j6, j7⟩ := hstep
      refine ⟨?_, ?_, ?_, by rw [i4, j4], by rw [i5, j5], by rw [i6, j6], fun h => i7 (j7 h)⟩
      · rw [i1, j1, List.flatMap_cons, List.append_assoc]
        congr 2
        apply List.flatMap_congr
        intro k hk
        unfold wait1
        rw [j3 k (fun h => ha (h ▸ hk))]
      · intro fd hfd
        rcases List.mem_cons.1 hfd with h | h
        · subst h
          have e := i3 fd ha
          unfold wait1 at j2 ⊢
          rw [e]; exact j2
        · exact i2 fd h
      · intro fd hfd
        rw [i3 fd (fun h => hfd (List.mem_cons_of_mem _ h)), j3 fd (fun h => hfd (by simp [h]))]

theorem progress_spec {s s' : Qs} (h : progress s = some s') :
    s'.queue = s.queue ++ s.waiting ∧ s'.waiting = [] ∧ s'.served = s.served ∧ s'.regd = s.regd := by
  obtain ⟨h1, h2, -, h4, h5, -⟩ := progL_spec _ _ _ List.nodup_range h
  refine ⟨h1, ?_, h4, h5⟩
  unfold Qs.waiting
  rw [List.flatMap_eq_nil_iff]
  exact h2

theorem progress_inv {rg0 : Nat → Bool} {es : List Ev} {s s' : Qs} (hs : QInv rg0 es s)
    (h : progress s = some s') : QInv rg0 es s' := by
  obtain ⟨h1, h2, h3, h4⟩ := progress_spec h
  constructor
  · rw [h1, h2, h3, List.append_nil, ← List.append_assoc]
    exact hs.perm
  · rw [h4]; exact hs.regd

theorem replay_spec : ∀ (l : List Rq) (fs : Nat → FS) (rg rg' : Nat → Bool), replay fs rg l = some rg' →
    ∀ fd, rg' fd = true → rg fd = true ∨ Rq.join fd ∈ l := by
  intro l
  induction l with
  | nil => intro fs rg rg' h fd hfd; cases h; exact .inl hfd
  | cons r l ih =>
    intro fs rg rg' h fd hfd
    cases r with
    | remove k =>
      simp only [replay] at h
      rcases ih _ _ _ h fd hfd with h | h
      · exact .inl h
      · exact .inr (List.mem_cons_of_mem _ h)
    | join k =>
      simp only [replay] at h
      by_cases hk : fs k = .reg2 ∧ rg k = false
      · rw [if_pos hk] at h
        rcases ih _ _ _ h fd hfd with h | h
        · by_cases hkf : fd = k
          · right; rw [hkf]; simp
          · left; simpa [upd, hkf] using h
        · exact .inr (List.mem_cons_of_mem _ h)
      · rw [if_neg hk] at h; cases h

theorem serve_spec {s s' : Qs} (h : serve s = some s') :
    s'.served = s.served ++ s.queue ∧ s'.q = some [] ∧ s'.fs = s.fs ∧
    s'.w = s.w.next (s.queue.map Rq.toReq) ∧ (∀ fd, s'.regd fd = true → s.regd fd = true ∨ Rq.join fd ∈ s.queue) := by
  unfold serve at h
  dsimp only at h
  split at h
  · rename_i rg x hr hd
    cases h
    exact ⟨rfl, rfl, rfl, rfl, replay_spec _ _ _ _ hr⟩
  · cases h

theorem serve_inv {rg0 : Nat → Bool} {es : List Ev} {s s' : Qs} (hs : QInv rg0 es s)
    (h : serve s = some s') : QInv rg0 es s' := by
  obtain ⟨h1, h2, h3, -, h4⟩ := serve_spec h
  constructor
  · have hw : s'.waiting = s.waiting := by unfold Qs.waiting; rw [h3]
    have hq : s'.queue = [] := by unfold Qs.queue; rw [h2]; rfl
    rw [h1, hw, hq, List.append_nil]
    exact hs.perm
  · intro fd hfd
    rcases h4 fd hfd with h | h
    · exact hs.regd fd h
    · right
      exact join_mem (hs.perm.mem_iff.1 (List.mem_append_left _ (List.mem_append_right _ h)))

theorem evs_noCut : ∀ (es : List Ev) (s s' : Qs), evs s es = some s' → (∀ e ∈ es, e.isCut = false) →
    s'.q = s.q := by
  intro es
  induction es with
  | nil => intro s s' h _; cases h; rfl
  | cons e es ih =>
    intro s s' h hc
    simp only [evs] at h
    cases he : evStep s e with
    | none => rw [he] at h; cases h
    | some s1 =>
      rw [he, Option.bind_some] at h
      rw [ih _ _ h (fun x hx => hc x (List.mem_cons_of_mem _ hx))]
      cases e with
      | cut ls => have := hc (.cut ls) (by simp); simp [Ev.isCut] at this
      | reg fd =>
        simp only [evStep] at he
        split at he
        · split at he
          · cases he; rfl
          · split at he
            · cases he; rfl
            · cases he
        · cases he
      | early fd ls =>
        simp only [evStep] at he
        split at he
        · cases he; rfl
        · cases he
      | close fd => cases he; rfl

theorem evs_served : ∀ (es : List Ev) (s s' : Qs), evs s es = some s' → s'.served = s.served := by
  intro es
  induction es with
  | nil => intro s s' h; cases h; rfl
  | cons e es ih =>
    intro s s' h
    simp only [evs] at h
    cases he : evStep s e with
    | none => rw [he] at h; cases h
    | some s1 =>
      rw [he, Option.bind_some] at h
      rw [ih _ _ h]
      cases e with
      | cut ls =>
        simp only [evStep] at he
        cases ha : addAll s.q (ls.map .remove) with
        | none => rw [ha] at he; cases he
        | some q => rw [ha] at he; cases he; rfl
      | reg fd =>
        simp only [evStep] at he
        split at he
        · split at he
          · cases he; rfl
          · split at he
            · cases he; rfl
            · cases he
        · cases he
      | early fd ls =>
        simp only [evStep] at he
        split at he
        · cases he; rfl
        · cases he
      | close fd => cases he; rfl

theorem evs_w : ∀ (es : List Ev) (s s' : Qs), evs s es = some s' → s'.w = s.w := by
  intro es
  induction es with
  | nil => intro s s' h; cases h; rfl
  | cons e es ih =>
    intro s s' h
    simp only [evs] at h
    cases he : evStep s e with
    | none => rw [he] at h; cases h
    | some s1 =>
      rw [he, Option.bind_some] at h
      rw [ih _ _ h]
      cases e with
      | cut ls =>
        simp only [evStep] at he
        cases ha : addAll s.q (ls.map .remove) with
        | none => rw [ha] at he; cases he
        | some q => rw [ha] at he; cases he; rfl
      | reg fd =>
        simp only [evStep] at he
        split at he
        · split at he
          · cases he; rfl
          · split at he
            · cases he; rfl
            · cases he
        · cases he
      | early fd ls =>
        simp only [evStep] at he
        split at he
        · cases he; rfl
        · cases he
      | close fd => cases he; rfl

/-- Requests in the queue stay there, in order. -/
theorem evs_queue : ∀ (es : List Ev) (s s' : Qs), evs s es = some s' → ∃ l, s'.queue = s.queue ++ l := by
  intro es
  induction es with
  | nil => intro s s' h; cases h; exact ⟨[], by simp⟩
  | cons e es ih =>
    intro s s' h
    simp only [evs] at h
    cases he : evStep s e with
    | none => rw [he] at h; cases h
    | some s1 =>
      rw [he, Option.bind_some] at h
      obtain ⟨l, hl⟩ := ih _ _ h
      have h1 : ∃ l, s1.queue = s.queue ++ l := by
        cases e with
        | cut ls =>
          simp only [evStep] at he
          cases ha : addAll s.q (ls.map .remove) with
          | none => rw [ha] at he; cases he
          | some q =>
            rw [ha] at he; cases he
            exact ⟨_, addAll_queue _ _ _ ha⟩
        | reg fd =>
          simp only [evStep] at he
          split at he
          · split at he
            · cases he; exact ⟨[], by simp⟩
            · split at he
              · cases he; exact ⟨[], by simp [Qs.queue]⟩
              · cases he
          · cases he
        | early fd ls =>
          simp only [evStep] at he
          split at he
          · cases he; exact ⟨[], by simp [Qs.queue]⟩
          · cases he
        | close fd => cases he; exact ⟨[], by simp [Qs.queue]⟩
      obtain ⟨l1, hl1⟩ := h1
      exact ⟨l1 ++ l, by rw [hl, hl1, List.append_assoc]⟩

theorem resizeQ_inv {rg0 : Nat → Bool} {es a b : List Ev} {s s' : Qs} (hs : QInv rg0 es s)
    (h : resizeQ s a b = some s') (hc : ∀ e ∈ a ++ b, e.isClose = false)
    (hn : (regsOf (es ++ (a ++ b))).Nodup) (hr : ∀ fd ∈ regsOf (a ++ b), rg0 fd = false)
    (hq : ∀ e ∈ b, e.isCut = false) : QInv rg0 (es ++ (a ++ b)) s' := by
  unfold resizeQ at h
  have hn1 : (regsOf (es ++ a)).Nodup := by
    rw [← List.append_assoc, regsOf_append] at hn
    exact (List.nodup_append.1 hn).1
  have hr1 : ∀ fd ∈ regsOf a, rg0 fd = false := fun fd hfd => hr fd (by
    rw [regsOf_append]; exact List.mem_append_left _ hfd)
  have hr2 : ∀ fd ∈ regsOf b, rg0 fd = false := fun fd hfd => hr fd (by
    rw [regsOf_append]; exact List.mem_append_right _ hfd)
  cases hp : progress s with
  | none => rw [hp] at h; cases h
  | some s1 =>
    rw [hp] at h
    dsimp only at h
    cases he : evs s1 a with
    | none => rw [he] at h; cases h
    | some s2 =>
      rw [he] at h
      dsimp only at h
      have i2 := evs_inv a es s1 s2 (progress_inv hs hp) he (fun e h => hc e (List.mem_append_left _ h)) hn1 hr1
      rw [← List.append_assoc] at hn ⊢
      cases hq1 : s1.q with
      | none =>
        rw [hq1] at h
        exact evs_inv b (es ++ a) s2 s' i2 h (fun e h => hc e (List.mem_append_right _ h)) hn hr2
      | some l =>
        rw [hq1] at h
        dsimp only at h
        cases hv : serve s2 with
        | none => rw [hv] at h; cases h
        | some s3 =>
          rw [hv] at h
          dsimp only at h
          cases hb : evs s3 b with
          | none => rw [hb] at h; cases h
          | some s4 =>
            rw [hb] at h
            cases h
            have i4 := evs_inv b (es ++ a) s3 s4 (serve_inv i2 hv) hb
              (fun e h => hc e (List.mem_append_right _ h)) hn hr2
            have hq4 : s4.q = some [] := by rw [evs_noCut b s3 s4 hb hq, (serve_spec hv).2.1]
            have : ({ s4 with q := some [] } : Qs) = s4 := by rw [← hq4]
            show QInv rg0 _ { s4 with q := some [] }
            rw [this]
            exact i4

theorem runQ_inv {rg0 : Nat → Bool} : ∀ (ops : List Op) (es : List Ev) (s s' : Qs), QInv rg0 es s →
    runQ s ops = some s' → (∀ e ∈ evsOf ops, e.isClose = false) → (regsOf (es ++ evsOf ops)).Nodup →
    (∀ fd ∈ regsOf (evsOf ops), rg0 fd = false) →
    (∀ a b, Op.resize a b ∈ ops → ∀ e ∈ b, e.isCut = false) → QInv rg0 (es ++ evsOf ops) s' := by
  intro ops
  induction ops with
  | nil => intro es s s' hs h _ _ _ _; cases h; simpa [evsOf] using hs
  | cons o ops ih =>
    intro es s s' hs h hc hn hr hq
    cases o with
    | ev e =>
      simp only [runQ] at h
      simp only [evsOf] at hc hn hr ⊢
      cases he : evStep s e with
      | none => rw [he] at h; cases h
      | some s1 =>
        rw [he, Option.bind_some] at h
        have hsplit : es ++ e :: evsOf ops = es ++ [e] ++ evsOf ops := by simp
        have h1 := evStep_inv hs he (hc e (by simp)) (by
          intro fd hfd
          subst hfd
          rw [regsOf_append] at hn
          simp only [regsOf] at hn hr
          exact ⟨fun hm => (List.nodup_append.1 hn).2.2 fd hm fd (by simp) rfl, hr fd (by simp)⟩)
        rw [hsplit] at hn ⊢
        exact ih _ s1 s' h1 h (fun x hx => hc x (List.mem_cons_of_mem _ hx)) hn
          (fun fd hfd => hr fd (by cases e <;> simp [regsOf, hfd]))
          (fun a b hab => hq a b (List.mem_cons_of_mem _ hab))
    | resize a b =>
      simp only [runQ] at h
      simp only [evsOf] at hc hn hr ⊢
      cases he : resizeQ s a b with
      | none => rw [he] at h; cases h
      | some s1 =>
        rw [he, Option.bind_some] at h
        rw [← List.append_assoc] at hn ⊢
        have h1 := resizeQ_inv hs he (fun e h => hc e (List.mem_append_left _ h))
          (by rw [regsOf_append] at hn; exact (List.nodup_append.1 hn).1)
          (fun fd hfd => hr fd (by rw [regsOf_append]; exact List.mem_append_left _ hfd))
          (hq a b (by simp))
        exact ih _ s1 s' h1 h (fun x hx => hc x (List.mem_append_right _ hx)) hn
          (fun fd hfd => hr fd (by rw [regsOf_append]; exact List.mem_append_right _ hfd))
          (fun a b hab => hq a b (List.mem_cons_of_mem _ hab))

end Laik.Rsz
