import Verif.Model.Choreo
/-!
# Executions of the programs for a sequence of events, with ideal channels

Every process is at some event; what was sent and received is what the sequence of
events says for the events done.
-/

namespace Laik.Mm

open Function

variable {σ : Type} {S : Comm → Prop} {es : List (Ev σ)} {st : Nat → Nat → σ}

/-- `st i`: states of the processes before event `i`. -/
def Traj (es : List (Ev σ)) (st : Nat → Nat → σ) : Prop :=
  ∀ i e, es[i]? = some e → e.step (st i) = some (st (i + 1))

theorem Traj.of_run : ∀ {es : List (Ev σ)} {s t : Nat → σ}, run es s = some t →
    ∃ st, Traj es st ∧ st 0 = s ∧ st es.length = t := by
  intro es
  induction es with
  | nil =>
    intro s t h
    simp only [run, Option.some.injEq] at h
    subst h
    exact ⟨fun _ => s, fun i e h => by simp at h, rfl, rfl⟩
  | cons e es ih =>
    intro s t h
    simp only [run, Option.bind_eq_some_iff] at h
    obtain ⟨s', h1, h2⟩ := h
    obtain ⟨st, h3, h4, h5⟩ := ih h2
    refine ⟨fun i => if i = 0 then s else st (i - 1), ?_, rfl, by simpa using h5⟩
    intro i e' hi
    cases i with
    | zero =>
      obtain rfl : e = e' := by simpa using hi
      simpa [h4] using h1
    | succ i => simpa using h3 i e' (by simpa using hi)

/-- Message of an event. -/
def Ev.msg (s : Nat → σ) : Ev σ → Option (Chan × Body)
  | .tr X _ out _ =>
    match X.src with
    | some P => some (X, out (s P))
    | none => none
  | .bt X b _ => some (X, b)
  | _ => none

/-- Message of event `i`. -/
def msgAt (es : List (Ev σ)) (st : Nat → Nat → σ) (i : Nat) : Option (Chan × Body) :=
  match es[i]? with
  | some e => e.msg (st i)
  | none => none

/-- Message of event `i` on channel `X`. -/
def emit (es : List (Ev σ)) (st : Nat → Nat → σ) (i : Nat) (X : Chan) : List Body :=
  match msgAt es st i with
  | some (Y, b) => if Y = X then [b] else []
  | none => []

/-- Messages of the first `i` events on channel `X`. -/
def ms (es : List (Ev σ)) (st : Nat → Nat → σ) : Nat → Chan → List Body
  | 0, _ => []
  | i + 1, X => ms es st i X ++ emit es st i X

theorem ms_mono (X : Chan) {i j : Nat} (h : i ≤ j) : ∃ l, ms es st j X = ms es st i X ++ l := by
  induction j with
  | zero =>
    obtain rfl : i = 0 := by omega
    exact ⟨[], by simp⟩
  | succ j ih =>
    by_cases hj : i = j + 1
    · subst hj
      exact ⟨[], by simp⟩
    · obtain ⟨l, hl⟩ := ih (by omega)
      exact ⟨l ++ emit es st j X, by simp [ms, hl]⟩

theorem ms_le (X : Chan) {i j : Nat} (h : i ≤ j) : (ms es st i X).length ≤ (ms es st j X).length := by
  obtain ⟨l, hl⟩ := ms_mono (es := es) (st := st) X h
  simp [hl]

theorem drop_at {i : Nat} {e : Ev σ} (h : es[i]? = some e) : es.drop i = e :: es.drop (i + 1) := by
  obtain ⟨h1, h2⟩ := List.getElem?_eq_some_iff.mp h
  rw [List.drop_eq_getElem_cons h1, h2]

/-- `p` is not sending in the background before event `a`. -/
def Idle (S : Comm → Prop) (es : List (Ev σ)) (p a : Nat) : Prop :=
  ∃ m, WF S m (es.drop a) ∧ ∀ c, m = some c → p ∉ c.tasks

/-- `p` may be sending in the background: before event `g`, the thread of the application
is before event `a`. -/
def Busy (S : Comm → Prop) (es : List (Ev σ)) (p a g : Nat) : Prop :=
  ∃ c j, (S c ∧ p ∈ c.tasks) ∧ es[j]? = some (.join c) ∧ a ≤ j ∧ g ≤ j ∧ WF S none (es.drop (j + 1)) ∧
    ∀ i, (a ≤ i ∨ g ≤ i) → i < j →
      ∃ X b upd, es[i]? = some (.bt X b upd) ∧ X.Valid S ∧ X.c = c

/-- A process is before event `a`. -/
def PI (S : Comm → Prop) (es : List (Ev σ)) (st : Nat → Nat → σ) (p : Nat) (prog : Prog σ)
    (bg : List Snd) (a g : Nat) : Prop :=
  prog = proj p (es.drop a) (st a p) ∧ a ≤ es.length ∧
    ((g = a ∧ bg = [] ∧ Idle S es p a) ∨ (Busy S es p a g ∧ bg = bsends p (es.drop g)))

/-- Events which the thread of the application of `p` takes part in by communication. -/
def Ev.on (p : Nat) : Ev σ → Prop
  | .loc _ _ => False
  | .tr X _ _ _ => X.src = some p ∨ X.dst = some p
  | .bt X _ _ => X.dst = some p
  | .fork c => p ∈ c.tasks
  | .join c => p ∈ c.tasks

theorem emit_tr {i : Nat} {X : Chan} {sy : Bool} {out : σ → Body} {upd : σ → Body → Option σ}
    (he : es[i]? = some (.tr X sy out upd)) {P Q : Nat} (hX : Ends S X P Q) :
    msgAt es st i = some (X, out (st i P)) := by
  simp [msgAt, he, Ev.msg, hX.src]

theorem emit_bt {i : Nat} {X : Chan} {b : Body} {upd : σ → Body → Option σ}
    (he : es[i]? = some (.bt X b upd)) : msgAt es st i = some (X, b) := by
  simp [msgAt, he, Ev.msg]

theorem emit_ne {i : Nat} {X : Chan} (h : ∀ b, msgAt es st i ≠ some (X, b)) : emit es st i X = [] := by
  simp only [emit]
  split
  · rename_i Y b hm
    split
    · rename_i e
      subst e
      exact absurd hm (h b)
    · rfl
  · rfl

theorem emit_eq {i : Nat} {X : Chan} {b : Body} (h : msgAt es st i = some (X, b)) :
    emit es st i X = [b] := by
  simp [emit, h]

/-- Nothing changes for `p` by an event it takes no part in. -/
theorem PI.skip (hT : Traj es st) {p : Nat} {prog : Prog σ} {bg : List Snd} {a g : Nat}
    (h : PI S es st p prog bg a g) {e : Ev σ} (he : es[a]? = some e) (hn : ¬ e.on p) :
    ∃ g', g ≤ g' ∧ PI S es st p prog bg (a + 1) g' ∧
      (∀ X Q, Ends S X p Q → ms es st g' X = ms es st g X) ∧
      (∀ X P, Ends S X P p → ms es st (a + 1) X = ms es st a X) := by
  obtain ⟨h1, h2, h3⟩ := h
  have hlen : a + 1 ≤ es.length := (List.getElem?_eq_some_iff.mp he).1
  have hst := hT a e he
  rw [drop_at he] at h1
  -- messages received
  have hrd : ∀ X P, Ends S X P p → ms es st (a + 1) X = ms es st a X := by
    intro X P hX
    rw [ms, emit_ne, List.append_nil]
    intro b hb
    simp only [msgAt, he] at hb
    cases e with
    | tr Y sy out upd =>
      simp only [Ev.msg] at hb
      split at hb
      · simp only [Option.some.injEq, Prod.mk.injEq] at hb
        obtain ⟨rfl, -⟩ := hb
        exact hn (Or.inr hX.dst)
      · cases hb
    | bt Y b' upd =>
      simp only [Ev.msg, Option.some.injEq, Prod.mk.injEq] at hb
      obtain ⟨rfl, -⟩ := hb
      exact hn hX.dst
    | _ => simp [Ev.msg] at hb
  -- the program
  have hprog : prog = proj p (es.drop (a + 1)) (st (a + 1) p) := by
    cases e with
    | loc q f =>
      simp only [Ev.step, Option.map_eq_some_iff] at hst
      obtain ⟨s', hf, hs⟩ := hst
      simp only [proj] at h1
      rw [← hs]
      by_cases hq : q = p
      · subst hq
        simpa [hf] using h1
      · rw [if_neg hq] at h1
        rw [update_of_ne (fun e => hq e.symm)]
        exact h1
    | tr X sy out upd =>
      have hn1 : X.src ≠ some p := fun e => hn (Or.inl e)
      have hn2 : X.dst ≠ some p := fun e => hn (Or.inr e)
      simp only [proj, if_neg hn1, if_neg hn2] at h1
      simp only [Ev.step] at hst
      split at hst
      · rename_i P Q hP hQ
        simp only [Option.map_eq_some_iff] at hst
        obtain ⟨s', hf, hs⟩ := hst
        rw [← hs, update_of_ne (by rintro rfl; exact hn2 hQ)]
        exact h1
      · cases hst
    | bt X b upd =>
      have hn2 : X.dst ≠ some p := fun e => hn e
      simp only [proj, if_neg hn2] at h1
      simp only [Ev.step] at hst
      split at hst
      · rename_i Q hQ
        simp only [Option.map_eq_some_iff] at hst
        obtain ⟨s', hf, hs⟩ := hst
        rw [← hs, update_of_ne (by rintro rfl; exact hn2 hQ)]
        exact h1
      · cases hst
    | fork c =>
      have hn' : p ∉ c.tasks := hn
      simp only [proj, if_neg hn'] at h1
      simp only [Ev.step, Option.some.injEq] at hst
      rw [← hst]
      exact h1
    | join c =>
      have hn' : p ∉ c.tasks := hn
      simp only [proj, if_neg hn'] at h1
      simp only [Ev.step, Option.some.injEq] at hst
      rw [← hst]
      exact h1
  rcases h3 with ⟨rfl, hbg, m, hm, hc⟩ | ⟨⟨c, j, hpc, hj, ha, hg, hw, hb⟩, hbg⟩
  · rw [drop_at he] at hm
    refine ⟨g + 1, by omega, ⟨hprog, hlen, Or.inl ⟨rfl, hbg, ?_⟩⟩, ?_, hrd⟩
    · cases m with
      | none =>
        cases e with
        | loc q f => exact ⟨none, hm, hc⟩
        | tr X sy out upd => exact ⟨none, hm.2, hc⟩
        | fork c =>
          refine ⟨some c, hm.2, fun d hd => ?_⟩
          cases hd
          exact hn
        | bt X b upd => exact hm.elim
        | join c => exact hm.elim
      | some c =>
        cases e with
        | bt X b upd => exact ⟨some c, hm.2.2, hc⟩
        | join d => exact ⟨none, hm.2, by simp⟩
        | loc q f => exact hm.elim
        | tr X sy out upd => exact hm.elim
        | fork d => exact hm.elim
    · intro X Q hX
      rw [ms, emit_ne, List.append_nil]
      intro b hb
      simp only [msgAt, he] at hb
      cases e with
      | tr Y sy out upd =>
        simp only [Ev.msg] at hb
        split at hb
        · simp only [Option.some.injEq, Prod.mk.injEq] at hb
          obtain ⟨rfl, -⟩ := hb
          exact hn (Or.inl hX.src)
        · cases hb
      | bt Y b' upd =>
        simp only [Ev.msg, Option.some.injEq, Prod.mk.injEq] at hb
        obtain ⟨rfl, -⟩ := hb
        cases m with
        | none => exact hm
        | some c =>
          refine hc c rfl ?_
          rw [← hm.2.1]
          exact List.mem_of_getElem? hX.fst
      | _ => simp [Ev.msg] at hb
  · have haj : a < j := by
      refine Nat.lt_of_le_of_ne ha ?_
      rintro rfl
      rw [hj] at he
      cases he
      exact hn hpc.2
    exact ⟨g, Nat.le_refl _, ⟨hprog, hlen, Or.inr ⟨⟨c, j, hpc, hj, haj, hg, hw,
      fun i hi => hb i (by omega)⟩, hbg⟩⟩, fun _ _ _ => rfl, hrd⟩

/-- Go on to the next event `p` takes part in. -/
theorem PI.norm (hT : Traj es st) {p : Nat} {prog : Prog σ} {bg : List Snd} :
    ∀ (n a g : Nat), es.length - a ≤ n → PI S es st p prog bg a g →
    ∃ a' g', a ≤ a' ∧ g ≤ g' ∧ PI S es st p prog bg a' g' ∧
      (∀ X Q, Ends S X p Q → ms es st g' X = ms es st g X) ∧
      (∀ X P, Ends S X P p → ms es st a' X = ms es st a X) ∧
      (a' = es.length ∨ ∃ e, es[a']? = some e ∧ e.on p) := by
  intro n
  induction n with
  | zero =>
    intro a g hn h
    have := h.2.1
    exact ⟨a, g, Nat.le_refl _, Nat.le_refl _, h, fun _ _ _ => rfl, fun _ _ _ => rfl,
      Or.inl (by omega)⟩
  | succ n ih =>
    intro a g hn h
    by_cases hl : a = es.length
    · exact ⟨a, g, Nat.le_refl _, Nat.le_refl _, h, fun _ _ _ => rfl, fun _ _ _ => rfl, Or.inl hl⟩
    · have hlt : a < es.length := Nat.lt_of_le_of_ne h.2.1 hl
      have he : es[a]? = some es[a] := by simp [hlt]
      by_cases ho : (es[a]).on p
      · exact ⟨a, g, Nat.le_refl _, Nat.le_refl _, h, fun _ _ _ => rfl, fun _ _ _ => rfl,
          Or.inr ⟨_, he, ho⟩⟩
      · obtain ⟨g1, hg1, h1, h2, h3⟩ := h.skip hT he ho
        obtain ⟨a', g', k1, k2, k3, k4, k5, k6⟩ := ih (a + 1) g1 (by omega) h1
        exact ⟨a', g', by omega, by omega, k3, fun X Q hX => (k4 X Q hX).trans (h2 X Q hX),
          fun X P hX => (k5 X P hX).trans (h3 X P hX), k6⟩

theorem WF.block {c : Comm} : ∀ {l : List (Ev σ)}, WF S (some c) l →
    ∃ j, l[j]? = some (.join c) ∧ WF S none (l.drop (j + 1)) ∧
      ∀ i, i < j → ∃ X b upd, l[i]? = some (.bt X b upd) ∧ X.Valid S ∧ X.c = c := by
  intro l
  induction l with
  | nil => exact fun h => h.elim
  | cons e l ih =>
    intro h
    cases e with
    | bt X b upd =>
      obtain ⟨j, h1, h2, h3⟩ := ih h.2.2
      refine ⟨j + 1, by simpa using h1, by simpa using h2, fun i hi => ?_⟩
      cases i with
      | zero => exact ⟨X, b, upd, rfl, h.1, h.2.1⟩
      | succ i => simpa using h3 i (by omega)
    | join d =>
      obtain ⟨rfl, h⟩ := h
      exact ⟨0, rfl, by simpa using h, fun i hi => by omega⟩
    | loc q f => exact h.elim
    | tr X sy out upd => exact h.elim
    | fork d => exact h.elim

/-- What `p` does next. -/
inductive View (S : Comm → Prop) (es : List (Ev σ)) (st : Nat → Nat → σ) (p : Nat) (prog : Prog σ)
    (bg : List Snd) (a g : Nat) : Prop
  | done (hl : a = es.length) (hp : prog = .ret (st a p)) (hg : g = a) (hb : bg = [])
  | send (X : Chan) (Q : Nat) (sy : Bool) (b : Body) (k : Prog σ) (hX : Ends S X p Q)
      (hm : msgAt es st a = some (X, b)) (hg : g = a) (hb : bg = [])
      (hp : prog = if sy then .ssend ⟨X.c, X.s, X.ty, X.r, X.tag, b⟩ k
        else .send ⟨X.c, X.s, X.ty, X.r, X.tag, b⟩ k)
      (hk : PI S es st p k [] (a + 1) (a + 1))
  | recv (X : Chan) (P : Nat) (b : Body) (k : Body → Prog σ) (g' : Nat) (hX : Ends S X P p)
      (hm : msgAt es st a = some (X, b))
      (hp : prog = .recv ⟨X.c, X.r, X.ty, X.s, X.tag⟩ k)
      (hg : (g = a ∧ g' = a + 1) ∨ (Busy S es p a g ∧ bg = bsends p (es.drop g) ∧ g' = g))
      (hk : PI S es st p (k b) bg (a + 1) g')
      (hs : ∀ Y Q, Ends S Y p Q → ms es st g' Y = ms es st g Y)
  | fork (ms : List Snd) (k : Prog σ) (hc : ∃ c, S c ∧ p ∈ c.tasks) (hm : msgAt es st a = none) (hg : g = a) (hb : bg = [])
      (hp : prog = .fork ms k) (hk : PI S es st p k ms (a + 1) (a + 1))
  | join (k : Prog σ) (hm : msgAt es st a = none) (hg : g ≤ a) (hp : prog = .join k)
      (hB : Busy S es p a g) (hb : bg = bsends p (es.drop g))
      (hk : bg = [] → PI S es st p k [] (a + 1) (a + 1) ∧
        ∀ X Q, Ends S X p Q → ms es st (a + 1) X = ms es st g X)

theorem bsends_nil {p : Nat} {j : Nat} : ∀ (n g : Nat), j - g ≤ n → g ≤ j →
    (∀ i, g ≤ i → i < j → ∃ X b upd, es[i]? = some (.bt X b upd)) →
    bsends p (es.drop g) = [] → ∀ X Q, Ends S X p Q → ms es st j X = ms es st g X := by
  intro n
  induction n with
  | zero =>
    intro g hn hg _ _ X Q _
    obtain rfl : g = j := by omega
    rfl
  | succ n ih =>
    intro g hn hg hb hnil X Q hX
    by_cases hj : g = j
    · rw [hj]
    · obtain ⟨Y, b, upd, he⟩ := hb g (Nat.le_refl _) (by omega)
      rw [drop_at he, bsends] at hnil
      split at hnil
      · cases hnil
      · rename_i hs
        rw [ih (g + 1) (by omega) (by omega) (fun i hi => hb i (by omega)) hnil X Q hX, ms, emit_ne,
          List.append_nil]
        intro b' hb'
        rw [emit_bt he] at hb'
        simp only [Option.some.injEq, Prod.mk.injEq] at hb'
        obtain ⟨rfl, -⟩ := hb'
        exact hs hX.src

theorem PI.view (hS : Sep S) (hT : Traj es st) {p : Nat} {prog : Prog σ} {bg : List Snd} {a g : Nat}
    (h : PI S es st p prog bg a g) (hn : a = es.length ∨ ∃ e, es[a]? = some e ∧ e.on p) :
    View S es st p prog bg a g := by
  obtain ⟨h1, h2, h3⟩ := h
  rcases hn with rfl | ⟨e, he, ho⟩
  · rcases h3 with ⟨rfl, hbg, -⟩ | ⟨⟨c, j, hpc, hj, ha, -⟩, -⟩
    · exact .done rfl (by rw [h1]; simp [proj]) rfl hbg
    · have := (List.getElem?_eq_some_iff.mp hj).1
      omega
  · have hlen : a + 1 ≤ es.length := (List.getElem?_eq_some_iff.mp he).1
    have hst := hT a e he
    rw [drop_at he] at h1
    rcases h3 with ⟨rfl, hbg, m, hm, hc⟩ | ⟨hB, hbg⟩
    · rw [drop_at he] at hm
      cases m with
      | none =>
        cases e with
        | loc q f => exact ho.elim
        | tr X sy out upd =>
          obtain ⟨P, Q, hX, hP, hQ⟩ := hm.1.ends
          have hne := hX.proc_ne hS
          simp only [Ev.step, hP, hQ, Option.map_eq_some_iff] at hst
          obtain ⟨s', hf, hs⟩ := hst
          by_cases hp : P = p
          · subst hp
            simp only [proj, if_pos hP] at h1
            have hsP : st (g + 1) P = st g P := by
              rw [← hs, update_of_ne hne]
            refine .send X Q sy (out (st g P)) (proj P (es.drop (g + 1)) (st (g + 1) P)) hX
              (emit_tr he hX) rfl hbg ?_ ⟨rfl, hlen, Or.inl ⟨rfl, rfl, none, hm.2, by simp⟩⟩
            rw [hsP]
            exact h1
          · have hq : Q = p := by
              rcases ho with ho | ho
              · rw [hP] at ho
                exact absurd (Option.some.inj ho) hp
              · rw [hQ] at ho
                exact Option.some.inj ho
            subst hq
            rw [proj, if_neg (by rw [hP]; simpa using hp), if_pos hQ] at h1
            refine .recv X P (out (st g P)) _ (g + 1) hX (emit_tr he hX) h1 (Or.inl ⟨rfl, rfl⟩)
              ⟨?_, hlen, Or.inl ⟨rfl, hbg, none, hm.2, by simp⟩⟩ ?_
            · simp only [hf]
              rw [← hs, update_self]
            · intro Y Q' hY
              rw [ms, emit_ne, List.append_nil]
              intro b hb
              rw [emit_tr he hX] at hb
              simp only [Option.some.injEq, Prod.mk.injEq] at hb
              obtain ⟨rfl, -⟩ := hb
              exact hp (hX.det hY).1
        | fork c =>
          have ho' : p ∈ c.tasks := ho
          rw [proj, if_pos ho'] at h1
          simp only [Ev.step, Option.some.injEq] at hst
          refine .fork _ _ ⟨c, hm.1, ho'⟩ (by simp [msgAt, he, Ev.msg]) rfl hbg h1 ⟨by rw [← hst], hlen, Or.inr ⟨?_, rfl⟩⟩
          obtain ⟨j, k1, k2, k3⟩ := hm.2.block
          refine ⟨c, g + 1 + j, ⟨hm.1, ho'⟩, by simpa using k1, by omega, by omega, ?_, fun i hi hi' => ?_⟩
          · simpa [List.drop_drop, Nat.add_assoc] using k2
          · obtain ⟨X, b, upd, k4⟩ := k3 (i - (g + 1)) (by omega)
            refine ⟨X, b, upd, ?_, k4.2⟩
            have := k4.1
            rw [List.getElem?_drop, show g + 1 + (i - (g + 1)) = i by omega] at this
            exact this
        | bt X b upd => exact hm.elim
        | join c => exact hm.elim
      | some c =>
        cases e with
        | bt X b upd =>
          have : p ∈ c.tasks := by
            rw [← hm.2.1]
            exact List.mem_of_getElem? (show X.c.tasks[X.r]? = some p from ho)
          exact absurd this (hc c rfl)
        | join d =>
          obtain ⟨rfl, -⟩ := hm
          exact absurd ho (hc d rfl)
        | loc q f => exact hm.elim
        | tr X sy out upd => exact hm.elim
        | fork d => exact hm.elim
    · obtain ⟨c, j, hpc, hj, ha, hg, hw, hb⟩ := hB
      by_cases haj : a = j
      · subst haj
        obtain rfl : e = .join c := by
          rw [hj] at he
          exact (Option.some.inj he).symm
        rw [proj, if_pos hpc.2] at h1
        simp only [Ev.step, Option.some.injEq] at hst
        refine .join _ (by simp [msgAt, he, Ev.msg]) hg h1 ⟨c, a, hpc, hj, ha, hg, hw, hb⟩ hbg
          fun hnil => ⟨⟨by rw [← hst], hlen, Or.inl ⟨rfl, rfl, none, hw, by simp⟩⟩, fun X Q hX => ?_⟩
        rw [ms, emit_ne (by simp [msgAt, he, Ev.msg]), List.append_nil]
        refine bsends_nil _ g (Nat.le_refl _) hg (fun i hi hi' => ?_) (hbg ▸ hnil) X Q hX
        obtain ⟨X, b, upd, h, -⟩ := hb i (Or.inr hi) hi'
        exact ⟨X, b, upd, h⟩
      · obtain ⟨X, b, upd, he', hX, hXc⟩ := hb a (Or.inl (Nat.le_refl _)) (by omega)
        obtain rfl : e = .bt X b upd := by
          rw [he'] at he
          exact (Option.some.inj he).symm
        obtain ⟨P, Q, hXe, hP, hQ⟩ := hX.ends
        have ho' : X.dst = some p := ho
        obtain rfl : Q = p := by
          rw [hQ] at ho'
          exact Option.some.inj ho'
        simp only [Ev.step, hQ, Option.map_eq_some_iff] at hst
        obtain ⟨s', hf, hs⟩ := hst
        rw [proj, if_pos hQ] at h1
        refine .recv X P b _ g hXe (emit_bt he) h1
          (Or.inr ⟨⟨c, j, hpc, hj, ha, hg, hw, hb⟩, hbg, rfl⟩)
          ⟨?_, hlen, Or.inr ⟨⟨c, j, hpc, hj, by omega, hg, hw, fun i hi => hb i (by omega)⟩, hbg⟩⟩
          fun _ _ _ => rfl
        simp only [hf]
        rw [← hs, update_self]

/-- The next message sent in the background. -/
theorem bsends_cons {p : Nat} {c : Comm} {j : Nat} {m : Snd} {l : List Snd} : ∀ (n g : Nat), j - g ≤ n →
    g ≤ j → es[j]? = some (.join c) →
    (∀ i, g ≤ i → i < j → ∃ X b upd, es[i]? = some (.bt X b upd) ∧ X.Valid S) →
    bsends p (es.drop g) = m :: l →
    ∃ i, g ≤ i ∧ i < j ∧ msgAt es st i = some (m.chan, m.body) ∧ (∃ Q, Ends S m.chan p Q) ∧
      l = bsends p (es.drop (i + 1)) ∧ ∀ X Q, Ends S X p Q → ms es st i X = ms es st g X := by
  intro n
  induction n with
  | zero =>
    intro g hn hg hj _ h
    obtain rfl : g = j := by omega
    rw [drop_at hj] at h
    simp [bsends] at h
  | succ n ih =>
    intro g hn hg hj hb h
    by_cases hgj : g = j
    · subst hgj
      rw [drop_at hj] at h
      simp [bsends] at h
    · obtain ⟨Y, b, upd, he, hY⟩ := hb g (Nat.le_refl _) (by omega)
      rw [drop_at he, bsends] at h
      split at h
      · rename_i hs
        simp only [List.cons.injEq] at h
        obtain ⟨rfl, rfl⟩ := h
        obtain ⟨P, Q, hE, hP, -⟩ := hY.ends
        rw [hP] at hs
        cases hs
        exact ⟨g, Nat.le_refl _, by omega, emit_bt he, ⟨Q, hE⟩, rfl, fun _ _ _ => rfl⟩
      · rename_i hs
        obtain ⟨i, h1, h2, h3, h4, h5, h6⟩ := ih (g + 1) (by omega) (by omega) hj
          (fun i hi => hb i (by omega)) h
        refine ⟨i, by omega, h2, h3, h4, h5, fun X Q hX => ?_⟩
        rw [h6 X Q hX, ms, emit_ne, List.append_nil]
        intro b' hb'
        rw [emit_bt he] at hb'
        simp only [Option.some.injEq, Prod.mk.injEq] at hb'
        obtain ⟨rfl, -⟩ := hb'
        exact hs hX.src

/-- Invariant: process `p` is before event `a p`, its sends are done up to event `g p`. -/
structure CI (S : Comm → Prop) (es : List (Ev σ)) (st : Nat → Nat → σ) (u : Ideal σ)
    (a g : Nat → Nat) : Prop where
  pi : ∀ p, PI S es st p (u.prog p) (u.bg p) (a p) (g p)
  sent : ∀ X P Q, Ends S X P Q → u.sent X = ms es st (g P) X
  rd : ∀ X P Q, Ends S X P Q → u.rd X = (ms es st (a Q) X).length

theorem CI.start {s : Nat → σ} (hw : WF S none es) (hs : st 0 = s) :
    CI S es st (Ideal.start fun p => proj p es (s p)) (fun _ => 0) (fun _ => 0) where
  pi p := ⟨by simp [Ideal.start, hs], Nat.zero_le _, Or.inl ⟨rfl, rfl, none, by simpa using hw, by simp⟩⟩
  sent X P Q _ := rfl
  rd X P Q _ := rfl

theorem CI.norm (hT : Traj es st) {u : Ideal σ} {a g : Nat → Nat} (h : CI S es st u a g) (p : Nat) :
    ∃ a' g', a p ≤ a' ∧ g p ≤ g' ∧ CI S es st u (update a p a') (update g p g') ∧
      (a' = es.length ∨ ∃ e, es[a']? = some e ∧ e.on p) := by
  obtain ⟨a', g', h1, h2, h3, h4, h5, h6⟩ := (h.pi p).norm hT _ _ _ (Nat.le_refl _)
  refine ⟨a', g', h1, h2, ⟨?_, ?_, ?_⟩, h6⟩
  · intro q
    by_cases hq : q = p
    · subst hq
      simpa using h3
    · simpa [hq] using h.pi q
  · intro X P Q hX
    by_cases hP : P = p
    · subst hP
      rw [update_self, h4 X Q hX, h.sent X P Q hX]
    · rw [update_of_ne hP, h.sent X P Q hX]
  · intro X P Q hX
    by_cases hQ : Q = p
    · subst hQ
      rw [update_self, h5 X P hX, h.rd X P Q hX]
    · rw [update_of_ne hQ, h.rd X P Q hX]

/-- One process moves. -/
theorem CI.set {u v : Ideal σ} {a g : Nat → Nat} (h : CI S es st u a g) {p a' g' : Nat}
    {k : Prog σ} {bg : List Snd} (hk : PI S es st p k bg a' g')
    (h1 : v.prog = update u.prog p k) (h2 : v.bg = update u.bg p bg)
    (h3 : ∀ X Q, Ends S X p Q → v.sent X = ms es st g' X)
    (h4 : ∀ X P, Ends S X P p → v.rd X = (ms es st a' X).length)
    (h5 : ∀ X P Q, Ends S X P Q → P ≠ p → v.sent X = u.sent X)
    (h6 : ∀ X P Q, Ends S X P Q → Q ≠ p → v.rd X = u.rd X) :
    CI S es st v (update a p a') (update g p g') := by
  refine ⟨?_, ?_, ?_⟩
  · intro q
    rw [h1, h2]
    by_cases hq : q = p
    · subst hq
      simpa using hk
    · simpa [hq] using h.pi q
  · intro X P Q hX
    by_cases hP : P = p
    · subst hP
      rw [update_self, h3 X Q hX]
    · rw [update_of_ne hP, h5 X P Q hX hP, h.sent X P Q hX]
  · intro X P Q hX
    by_cases hQ : Q = p
    · subst hQ
      rw [update_self, h4 X P hX]
    · rw [update_of_ne hQ, h6 X P Q hX hQ, h.rd X P Q hX]

theorem ms_emit {i : Nat} {X Y : Chan} {b : Body} (h : msgAt es st i = some (X, b)) :
    ms es st (i + 1) Y = if Y = X then ms es st i Y ++ [b] else ms es st i Y := by
  by_cases hY : Y = X
  · subst hY
    rw [if_pos rfl, ms, emit_eq h]
  · rw [if_neg hY, ms, emit_ne, List.append_nil]
    intro b' hb
    rw [h] at hb
    simp only [Option.some.injEq, Prod.mk.injEq] at hb
    exact hY hb.1.symm

theorem ms_none {i : Nat} {Y : Chan} (h : msgAt es st i = none) : ms es st (i + 1) Y = ms es st i Y := by
  rw [ms, emit_ne (by simp [h]), List.append_nil]

theorem update_pair {f : Nat → Nat} {p x y : Nat} : update (update f p x) p y = update f p y := by
  simp

/-- Every step is a step of one process to its next event. -/
theorem CI.step (hS : Sep S) (hT : Traj es st) {u v : Ideal σ} {a g : Nat → Nat}
    (h : CI S es st u a g) (hs : IStep u v) :
    ∃ p a' g', a p ≤ a' ∧ g p ≤ g' ∧ a p + g p < a' + g' ∧ (∃ c, S c ∧ p ∈ c.tasks) ∧
      CI S es st v (update a p a') (update g p g') := by
  have main : ∀ p : Nat, ∃ a' g', a p ≤ a' ∧ g p ≤ g' ∧ CI S es st u (update a p a') (update g p g') ∧
      View S es st p (u.prog p) (u.bg p) a' g' := by
    intro p
    obtain ⟨a', g', h1, h2, h3, h4⟩ := h.norm hT p
    have := h3.pi p
    simp only [update_self] at this
    exact ⟨a', g', h1, h2, h3, this.view hS hT h4⟩
  have sendc : ∀ (p : Nat) (m : Snd) (k : Prog σ),
      (u.prog p = .send m k ∨ u.prog p = .ssend m k) → v.prog = update u.prog p k → v.bg = u.bg →
      v.sent = update u.sent m.chan (u.sent m.chan ++ [m.body]) → v.rd = u.rd →
      ∃ p a' g', a p ≤ a' ∧ g p ≤ g' ∧ a p + g p < a' + g' ∧ (∃ c, S c ∧ p ∈ c.tasks) ∧
        CI S es st v (update a p a') (update g p g') := by
    intro p m k hp e1 e2 e3 e4
    obtain ⟨a', g', h1, h2, h3, h4⟩ := main p
    cases h4 with
    | done hl hp' hg hb => rcases hp with hp | hp <;> (rw [hp'] at hp; cases hp)
    | recv X P b k' g'' hX hm hp' hg hk hs => rcases hp with hp | hp <;> (rw [hp'] at hp; cases hp)
    | fork ms k' hc hm hg hb hp' hk => rcases hp with hp | hp <;> (rw [hp'] at hp; cases hp)
    | join k' hm hg hp' hB hb hk => rcases hp with hp | hp <;> (rw [hp'] at hp; cases hp)
    | send X Q sy b k' hX hm hg hb hp' hk =>
      subst hg
      have hmk : m = ⟨X.c, X.s, X.ty, X.r, X.tag, b⟩ ∧ k = k' := by
        rw [hp'] at hp
        cases sy <;> simp at hp <;> exact ⟨hp.1.symm, hp.2.symm⟩
      obtain ⟨rfl, rfl⟩ := hmk
      have hmc : Snd.chan ⟨X.c, X.s, X.ty, X.r, X.tag, b⟩ = X := rfl
      rw [hmc] at e3
      have hCI := h3.set (v := v) hk e1 (by rw [e2, ← hb]; simp)
        (fun Y Q' hY => by
          rw [e3, ms_emit hm]
          have := h3.sent Y p Q' hY
          rw [update_self] at this
          by_cases hYX : Y = X
          · subst hYX
            simp [this]
          · simp [hYX, this])
        (fun Y P hY => by
          have := h3.rd Y P p hY
          rw [update_self] at this
          have hYX : Y ≠ X := by
            rintro rfl
            exact hX.proc_ne hS (hX.det hY).2.symm
          rw [e4, this, ms_emit hm, if_neg hYX])
        (fun Y P Q' hY hP => by
          have hYX : Y ≠ X := by
            rintro rfl
            exact hP (hX.det hY).1.symm
          simp [e3, hYX])
        (fun _ _ _ _ _ => by rw [e4])
      rw [update_pair, update_pair] at hCI
      exact ⟨p, g' + 1, g' + 1, by omega, by omega, by omega, ⟨X.c, hX.mem, List.mem_of_getElem? hX.fst⟩, hCI⟩
  cases hs with
  | send p m k hp => exact sendc p m k (Or.inl hp) rfl rfl rfl rfl
  | ssend p m k hp => exact sendc p m k (Or.inr hp) rfl rfl rfl rfl
  | recv p m k b hp hb =>
    obtain ⟨a', g', h1, h2, h3, h4⟩ := main p
    cases h4 with
    | done hl hp' hg hb => rw [hp'] at hp; cases hp
    | send X Q sy b' k' hX hm hg hb hp' hk => rw [hp'] at hp; cases sy <;> simp at hp
    | fork ms k' hc hm hg hb hp' hk => rw [hp'] at hp; cases hp
    | join k' hm hg hp' hB hb hk => rw [hp'] at hp; cases hp
    | recv X P b' k' g'' hX hm hp' hg hk hss =>
      rw [hp'] at hp
      simp only [Prog.recv.injEq] at hp
      obtain ⟨rfl, rfl⟩ := hp
      have hmc : Rcv.chan ⟨X.c, X.r, X.ty, X.s, X.tag⟩ = X := rfl
      rw [hmc] at hb ⊢
      have hrd := h3.rd X P p hX
      rw [update_self] at hrd
      have hsn := h3.sent X P p hX
      -- the message is that of the event
      have hbb : b' = b := by
        rw [hrd, hsn] at hb
        by_cases hle : update g p g' P ≤ a'
        · have := ms_le (es := es) (st := st) X hle
          have := (List.getElem?_eq_some_iff.mp hb).1
          omega
        · obtain ⟨l, hl⟩ := ms_mono (es := es) (st := st) X (show a' + 1 ≤ update g p g' P by omega)
          rw [hl, ms_emit hm, if_pos rfl, List.append_assoc] at hb
          simpa using hb
      subst hbb
      have hCI := h3.set (v := { u with
            prog := update u.prog p (k' b')
            rd := update u.rd X (u.rd X + 1) }) hk rfl (by simp)
        (fun Y Q' hY => by
          have := h3.sent Y p Q' hY
          rw [update_self] at this
          rw [hss Y Q' hY]
          exact this)
        (fun Y P' hY => by
          have := h3.rd Y P' p hY
          rw [update_self] at this
          rw [ms_emit hm]
          by_cases hYX : Y = X
          · subst hYX
            simp [this]
          · simp [hYX, this])
        (fun _ _ _ _ _ => rfl)
        (fun Y P' Q' hY hQ => by
          have hYX : Y ≠ X := by
            rintro rfl
            exact hQ (hX.det hY).2.symm
          simp [hYX])
      rw [update_pair, update_pair] at hCI
      have hgg : g' ≤ g'' := by
        rcases hg with hg | hg
        · omega
        · omega
      exact ⟨p, a' + 1, g'', by omega, by omega, by omega,
        ⟨X.c, hX.mem, List.mem_of_getElem? hX.snd⟩, hCI⟩
  | fork p ms k hp hb0 =>
    obtain ⟨a', g', h1, h2, h3, h4⟩ := main p
    cases h4 with
    | done hl hp' hg hb => rw [hp'] at hp; cases hp
    | send X Q sy b' k' hX hm hg hb hp' hk => rw [hp'] at hp; cases sy <;> simp at hp
    | recv X P b k' g'' hX hm hp' hg hk hs => rw [hp'] at hp; cases hp
    | join k' hm hg hp' hB hb hk => rw [hp'] at hp; cases hp
    | fork ms' k' hc hm hg hb hp' hk =>
      subst hg
      rw [hp'] at hp
      simp only [Prog.fork.injEq] at hp
      obtain ⟨rfl, rfl⟩ := hp
      have hCI := h3.set (v := { u with prog := update u.prog p k', bg := update u.bg p ms' }) hk rfl rfl
        (fun Y Q' hY => by
          have := h3.sent Y p Q' hY
          rw [update_self] at this
          rw [ms_none hm]
          exact this)
        (fun Y P' hY => by
          have := h3.rd Y P' p hY
          rw [update_self] at this
          rw [ms_none hm]
          exact this)
        (fun _ _ _ _ _ => rfl) (fun _ _ _ _ _ => rfl)
      rw [update_pair, update_pair] at hCI
      exact ⟨p, g' + 1, g' + 1, by omega, by omega, by omega, hc, hCI⟩
  | join p k hp hb0 =>
    obtain ⟨a', g', h1, h2, h3, h4⟩ := main p
    cases h4 with
    | done hl hp' hg hb => rw [hp'] at hp; cases hp
    | send X Q sy b' k' hX hm hg hb hp' hk => rw [hp'] at hp; cases sy <;> simp at hp
    | recv X P b k' g'' hX hm hp' hg hk hs => rw [hp'] at hp; cases hp
    | fork ms k' hc hm hg hb hp' hk => rw [hp'] at hp; cases hp
    | join k' hm hg hp' hB hb hk =>
      rw [hp'] at hp
      simp only [Prog.join.injEq] at hp
      obtain rfl := hp
      obtain ⟨hk1, hk2⟩ := hk hb0
      have hCI := h3.set (v := { u with prog := update u.prog p k' }) hk1 rfl (by rw [← hb0]; simp)
        (fun Y Q' hY => by
          have := h3.sent Y p Q' hY
          rw [update_self] at this
          rw [hk2 Y Q' hY]
          exact this)
        (fun Y P' hY => by
          have := h3.rd Y P' p hY
          rw [update_self] at this
          rw [ms_none hm]
          exact this)
        (fun _ _ _ _ _ => rfl) (fun _ _ _ _ _ => rfl)
      rw [update_pair, update_pair] at hCI
      obtain ⟨c, -, hc, -⟩ := hB
      exact ⟨p, a' + 1, a' + 1, by omega, by omega, by omega, ⟨c, hc⟩, hCI⟩
  | bg p m l hp =>
    obtain ⟨h1, h2, h3⟩ := h.pi p
    rcases h3 with ⟨-, hb, -⟩ | ⟨⟨c, j, hpc, hj, ha, hg, hw, hb⟩, hbg⟩
    · rw [hb] at hp
      cases hp
    · rw [hbg] at hp
      obtain ⟨i, k1, k2, k3, ⟨Q, hX⟩, k5, k6⟩ := bsends_cons (st := st) (S := S) _ (g p)
        (Nat.le_refl _) hg hj
        (fun i hi hi' => by
          obtain ⟨X, b, upd, h, h', -⟩ := hb i (Or.inr hi) hi'
          exact ⟨X, b, upd, h, h'⟩) hp
      have hk : PI S es st p (u.prog p) l (a p) (i + 1) :=
        ⟨h1, h2, Or.inr ⟨⟨c, j, hpc, hj, ha, by omega, hw, fun i' hi' => hb i' (by omega)⟩, k5⟩⟩
      have hCI := h.set (v := { u with
            bg := update u.bg p l
            sent := update u.sent m.chan (u.sent m.chan ++ [m.body]) }) hk (by simp) rfl
        (fun Y Q' hY => by
          have := h.sent Y p Q' hY
          rw [ms_emit k3, k6 Y Q' hY]
          by_cases hYX : Y = m.chan
          · subst hYX
            simp [this]
          · simp [hYX, this])
        (fun Y P hY => h.rd Y P p hY)
        (fun Y P Q' hY hP => by
          have hYX : Y ≠ m.chan := by
            rintro rfl
            exact hP (hX.det hY).1.symm
          simp [hYX])
        (fun _ _ _ _ _ => rfl)
      exact ⟨p, a p, i + 1, Nat.le_refl _, by omega, by omega, ⟨c, hpc⟩, hCI⟩

end Laik.Mm
